import Verif.Lemmas.Atoms
import Verif.Lemmas.AtomsCode
import Verif.Lemmas.AtomsDown
import Verif.Lemmas.AtomsList
import Verif.Lemmas.AtomsMin
import Verif.Lemmas.AtomsReach
import Verif.Lemmas.AtomsStep
import Verif.Lemmas.AtomsUp
import Verif.Lemmas.AtomsWords
import Verif.Lemmas.AtomsZero
import Verif.Lemmas.BoxOps
import Verif.Lemmas.Bruhat
import Verif.Lemmas.BruhatRank
import Verif.Lemmas.Cached
import Verif.Lemmas.Count
import Verif.Lemmas.CrystalColumn
import Verif.Lemmas.CrystalMulti
import Verif.Lemmas.CrystalMultiTab
import Verif.Lemmas.CrystalSet
import Verif.Lemmas.Dict
import Verif.Lemmas.Doublebar
import Verif.Lemmas.DoublebarFam
import Verif.Lemmas.DoublebarPoly
import Verif.Lemmas.DualFamily
import Verif.Lemmas.Dualops
import Verif.Lemmas.Expansion
import Verif.Lemmas.ExpansionBases
import Verif.Lemmas.ExpansionSpan
import Verif.Lemmas.Expressable
import Verif.Lemmas.Fomin
import Verif.Lemmas.Fpf
import Verif.Lemmas.FpfBruhat
import Verif.Lemmas.FpfGrassmannian
import Verif.Lemmas.FpfWords
import Verif.Lemmas.FromSkew
import Verif.Lemmas.Grassmannian
import Verif.Lemmas.HeckeActions
import Verif.Lemmas.HeckeCount
import Verif.Lemmas.HeckeFactor
import Verif.Lemmas.HeckeLevels
import Verif.Lemmas.HeckeRun
import Verif.Lemmas.Insertion
import Verif.Lemmas.InsertionPieri
import Verif.Lemmas.InsertionPush
import Verif.Lemmas.InsertionRun
import Verif.Lemmas.InsertionStd
import Verif.Lemmas.InsertionSurj
import Verif.Lemmas.InsertionTrace
import Verif.Lemmas.InsertionWord
import Verif.Lemmas.InvBruhat
import Verif.Lemmas.InvGrassmannian
import Verif.Lemmas.Involutions
import Verif.Lemmas.KlgEnum
import Verif.Lemmas.KogEnum
import Verif.Lemmas.Layer
import Verif.Lemmas.LayerGen
import Verif.Lemmas.LevelFill
import Verif.Lemmas.LineTrace
import Verif.Lemmas.Little
import Verif.Lemmas.LittleCross
import Verif.Lemmas.LittleFpf
import Verif.Lemmas.LittleFpfExch
import Verif.Lemmas.LittleFpfLoop
import Verif.Lemmas.LittleInv
import Verif.Lemmas.LittleWires
import Verif.Lemmas.MarkedCount
import Verif.Lemmas.MarkedExpansion
import Verif.Lemmas.MarkedGen
import Verif.Lemmas.MarkedPoly
import Verif.Lemmas.MarkedRpp
import Verif.Lemmas.MarkedRppCount
import Verif.Lemmas.MarkedSpec
import Verif.Lemmas.MarkedStrips
import Verif.Lemmas.MarkedSymm
import Verif.Lemmas.MarkedTriang
import Verif.Lemmas.MoveOps
import Verif.Lemmas.MrppComm
import Verif.Lemmas.MrppLink
import Verif.Lemmas.MrppPoly
import Verif.Lemmas.MrppStrips
import Verif.Lemmas.MrppTop
import Verif.Lemmas.Operators
import Verif.Lemmas.OperatorsGq
import Verif.Lemmas.OperatorsMoves
import Verif.Lemmas.OperatorsRemove
import Verif.Lemmas.Partitions
import Verif.Lemmas.PartitionsCorner
import Verif.Lemmas.PartitionsGen
import Verif.Lemmas.PartitionsGrowth
import Verif.Lemmas.PartitionsMore
import Verif.Lemmas.Perm
import Verif.Lemmas.PermAll
import Verif.Lemmas.PermCodes
import Verif.Lemmas.PermHecke
import Verif.Lemmas.PermInvolutions
import Verif.Lemmas.PermInvolutionsAll
import Verif.Lemmas.PermLen
import Verif.Lemmas.PermMore
import Verif.Lemmas.PermSignedInvolutions
import Verif.Lemmas.PermWords
import Verif.Lemmas.Poly
import Verif.Lemmas.PolySubst
import Verif.Lemmas.Reflections
import Verif.Lemmas.RimChain
import Verif.Lemmas.RimCount
import Verif.Lemmas.RimTabs
import Verif.Lemmas.RimWords
import Verif.Lemmas.Rims
import Verif.Lemmas.RimsShape
import Verif.Lemmas.Rpp
import Verif.Lemmas.RppCount
import Verif.Lemmas.RppStrips
import Verif.Lemmas.RppSymm
import Verif.Lemmas.RppWeight
import Verif.Lemmas.Rref
import Verif.Lemmas.Semistandard
import Verif.Lemmas.ShiftedColumn
import Verif.Lemmas.ShiftedGrowth
import Verif.Lemmas.ShiftedInsertion
import Verif.Lemmas.ShiftedInverse
import Verif.Lemmas.ShiftedPieri
import Verif.Lemmas.ShiftedPush
import Verif.Lemmas.ShiftedRecord
import Verif.Lemmas.ShiftedRun
import Verif.Lemmas.ShiftedStd
import Verif.Lemmas.ShiftedWord
import Verif.Lemmas.SkewKey
import Verif.Lemmas.SlowPoly
import Verif.Lemmas.StableFull
import Verif.Lemmas.StableG
import Verif.Lemmas.StableGen
import Verif.Lemmas.StableKinds
import Verif.Lemmas.Standard
import Verif.Lemmas.Strips
import Verif.Lemmas.SymGen
import Verif.Lemmas.SymMono
import Verif.Lemmas.SymMul
import Verif.Lemmas.SymPoly
import Verif.Lemmas.SymTab
import Verif.Lemmas.SymTriang
import Verif.Lemmas.SymplecticAction
import Verif.Lemmas.TabCount
import Verif.Lemmas.TabSemi
import Verif.Lemmas.Tableau
import Verif.Lemmas.TransDual
import Verif.Lemmas.TransExp
import Verif.Lemmas.TransLine
import Verif.Lemmas.TransPoly
import Verif.Lemmas.TransRow
import Verif.Lemmas.TransSteps
import Verif.Lemmas.TransTab
import Verif.Lemmas.Transfer
import Verif.Lemmas.Transitions
import Verif.Lemmas.TransitionsCov
import Verif.Lemmas.TransitionsRaise
import Verif.Lemmas.TransitionsTau
import Verif.Lemmas.Unprime
import Verif.Lemmas.UnprimeSort
import Verif.Lemmas.UnprimeTab
import Verif.Lemmas.Vector
import Verif.Lemmas.Vertex
import Verif.Lemmas.VertexInv
import Verif.Lemmas.VertexPair
import Verif.Lemmas.Vst
import Verif.Lemmas.VstSum
import Verif.Lemmas.Weights
import Verif.Lemmas.Words
import Verif.Lemmas.WordsPeaks
import Verif.Lemmas.WordsZeta
import Verif.Lemmas.YangBaxter
import Verif.Model.Atoms
import Verif.Model.Boxes
import Verif.Model.Bruhat
import Verif.Model.Cached
import Verif.Model.Crystals
import Verif.Model.Descents
import Verif.Model.Dict
import Verif.Model.Doublebar
import Verif.Model.Dual
import Verif.Model.Dualops
import Verif.Model.Expansion
import Verif.Model.GpFree
import Verif.Model.GrowthTableaux
import Verif.Model.HeckeLevels
import Verif.Model.Insertion
import Verif.Model.Involutions
import Verif.Model.Little
import Verif.Model.LittleAtoms
import Verif.Model.LittleFpf
import Verif.Model.Marked
import Verif.Model.MarkedPoly
import Verif.Model.MarkedRpp
import Verif.Model.MarkedRppPoly
import Verif.Model.OmegaSchur
import Verif.Model.Operators
import Verif.Model.Partitions
import Verif.Model.PartitionsMore
import Verif.Model.PermCodes
import Verif.Model.PermGenerators
import Verif.Model.PermMore
import Verif.Model.PermWords
import Verif.Model.Permutations
import Verif.Model.Poly
import Verif.Model.PolyCall
import Verif.Model.PolyVal
import Verif.Model.Refined
import Verif.Model.Rims
import Verif.Model.Rpp
import Verif.Model.RppExcess
import Verif.Model.Rref
import Verif.Model.ShiftedGrowth
import Verif.Model.ShiftedInsertion
import Verif.Model.Skew
import Verif.Model.SlowPoly
import Verif.Model.StableG
import Verif.Model.Superstandard
import Verif.Model.Symmetric
import Verif.Model.TabCrystals
import Verif.Model.TabOps
import Verif.Model.TabStats
import Verif.Model.Tableau
import Verif.Model.Transitions
import Verif.Model.Transposed
import Verif.Model.Unprime
import Verif.Model.Vector
import Verif.Model.VectorTests
import Verif.Model.Vst
import Verif.Model.VstCounts
import Verif.Model.VstGroups
import Verif.Model.VstHinge
import Verif.Model.VstLines
import Verif.Model.WordCrystals
import Verif.Model.Words
import Verif.Props.Atoms
import Verif.Props.Boxes
import Verif.Props.Bruhat
import Verif.Props.Cached
import Verif.Props.Crystals
import Verif.Props.Descents
import Verif.Props.Doublebar
import Verif.Props.Dual
import Verif.Props.Dualops
import Verif.Props.Expansion
import Verif.Props.Factorizations
import Verif.Props.Fpf
import Verif.Props.FromSkew
import Verif.Props.GpFree
import Verif.Props.Grassmannian
import Verif.Props.GrowthTableaux
import Verif.Props.Insertion
import Verif.Props.InsertionSurj
import Verif.Props.InsertionTableaux
import Verif.Props.InsertionWord
import Verif.Props.InvGrassmannian
import Verif.Props.Involutions
import Verif.Props.Little
import Verif.Props.LittleAtoms
import Verif.Props.LittleFpf
import Verif.Props.LittleInv
import Verif.Props.Marked
import Verif.Props.MarkedDual
import Verif.Props.MarkedExpansion
import Verif.Props.MarkedRpp
import Verif.Props.OmegaSchur
import Verif.Props.Operators
import Verif.Props.Partitions
import Verif.Props.PartitionsMore
import Verif.Props.PermCodes
import Verif.Props.PermGenerators
import Verif.Props.PermMore
import Verif.Props.Permutations
import Verif.Props.Poly
import Verif.Props.PolyCall
import Verif.Props.ReadingWords
import Verif.Props.Refined
import Verif.Props.Rims
import Verif.Props.Rpp
import Verif.Props.RppExcess
import Verif.Props.Rref
import Verif.Props.ShiftedGrowth
import Verif.Props.ShiftedInsertion
import Verif.Props.SkewBoxes
import Verif.Props.SkewKey
import Verif.Props.Slow
import Verif.Props.StableG
import Verif.Props.Standard
import Verif.Props.Superstandard
import Verif.Props.Symmetric
import Verif.Props.TabCrystals
import Verif.Props.TabStats
import Verif.Props.TabTests
import Verif.Props.Tableau
import Verif.Props.Transitions
import Verif.Props.TransitionsFpf
import Verif.Props.Transposed
import Verif.Props.TransposedExp
import Verif.Props.Unprime
import Verif.Props.UnprimeSort
import Verif.Props.Vector
import Verif.Props.VectorTests
import Verif.Props.Vst
import Verif.Props.VstCounts
import Verif.Props.VstGroups
import Verif.Props.VstHinge
import Verif.Props.VstLines
import Verif.Props.WordCrystals
import Verif.Props.Words
import Verif.Spec.Bruhat
import Verif.Spec.Fpf
import Verif.Spec.FreeModule
import Verif.Spec.HeckeWords
import Verif.Spec.Insertion
import Verif.Spec.Laurent
import Verif.Spec.LinAlg
import Verif.Spec.Partitions
import Verif.Spec.Permutations
import Verif.Spec.Rims
import Verif.Spec.StableG
import Verif.Spec.Standard
import Verif.Spec.Symmetric
import Verif.Spec.Tableau
