# Formal model of stable-grothendieck: design

Source: `/repo` (python, read as text, never run). Model and proofs: `/verif/lean` (Lean 4.33.0, Mathlib
imported module by module). Claims: `properties.jsonl`. Status of each claim: `MANIFEST.json`.

## Trusted base

* Lean's kernel. Theorems depend at most on Lean's standard axioms `propext`, `Classical.choice`, `Quot.sound`
  (checked with `#print axioms` and by `vcheck`). No axioms of our own, no `sorry`, no `native_decide`/`bv_decide`.
* The hand translation from python to Lean. Each definition of the model names the file and lines it models and
  says where it simplifies. Nothing else ties the model to the code.
* The small specifications in `Verif/Spec/*.lean` (what a semistandard tableau is, what a Laurent polynomial is,
  ...). They are written from the mathematics and do not mention the model.

## Modelling conventions

* Python `int` is `Int`, or `Nat` where the code only ever sees non-negative numbers. Tuples and lists are `List`.
* A `dict` is an association list in insertion order with distinct keys (`Verif/Model/Dict.lean`), with the python
  operations get / set / delete. Python sets whose iteration order matters are lists in *arbitrary* order: a theorem
  then quantifies over the order. Sets whose order cannot be observed are duplicate-free lists.
* An exception is a value (`Option` / `Except`). A `None` result is `Option.none`. Loops are structural recursion,
  folds, or well-founded recursion; a loop that may fail to terminate gets fuel and termination is a theorem.
* Module-level caches are explicit state threaded through the calls when a property is about call histories;
  otherwise the function without the cache is modelled, which `C38` (cached_value is transparent) justifies.
* `Polynomial` is a dict from monomials to `Int`; a monomial (`HashableDict` of variable -> exponent) is the sorted
  list of its items without zero exponents. Python compares and hashes these dicts without regard to order, so
  the sorted list is the same key.
* Not modelled: printing (`__repr__`, diagrams, tex), hash values, file output of crystals.py, wall-clock cost.

## Layout

| module | contents |
|---|---|
| `Verif/Model/*` | the python functions |
| `Verif/Spec/*`  | specifications that do not use the model |
| `Verif/Lemmas/*` | helper lemmas |
| `Verif/Props/*` | one theorem (or a few) per property, with non-vacuity examples |

## Plan per property

| id | what is modelled | how it is proved |
|---|---|---|
| C01 | `__add__`, `__sub__`, `__neg__`, `__getitem__` on dict polynomials | lookup lemmas for the dict loop, induction on the terms |
| C02 | `__mul__` with its delete-on-zero loop | the denotation in `AddMonoidAlgebra ℤ (ℤ →₀ ℤ)` is preserved by each loop step |
| C03 | `__eq__`, `nnz`, `__bool__` | from C01: all coefficients of the difference vanish |
| C04 | `__pow__`, all three branches | induction on the exponent; negative even powers of `-monomial` violate the claim: negation with a witness and a partial theorem |
| C05 | `substitute` | denotation = ring hom of Laurent polynomials in the other variables; induction on terms |
| C06 | `coefficient` | coefficient lookup, then finite sum over the exponents that occur |
| C07 | `truncate`, `total_degree`, `degree` | list induction |
| C08 | `__mod__`, `__floordiv__`, `__truediv__` (python floor division = `Int.fdiv`) | coefficientwise |
| C09 | `__lt__`, `__gt__` | irreflexivity is false (`p < p` is True): negation with a witness; the rest as a partial theorem |
| C10 | `__xor__` | from C01, C02 |
| C11 | `Vector` over a commutative ring with decidable equality | lookup lemmas |
| C12 | `Vector.__mul__` with an arbitrary multiplier, `__pow__` | finite sums; strong induction for squaring |
| C13 | `e/f_crystal_operator` with the cancellation loop and the cutting of the result | the loop computes the unmatched letters of bracket matching; structural analysis of the reduced form |
| C14 | same | counting unmatched letters by prefix maxima |
| C15 | `quasisymmetrize` | strong induction on the word |
| C16 | zeta characters | induction on the word |
| C17 | `transpose`, `shape` | counting lemma: `j < mu'_i` iff `i < mu_j` |
| C18 | `generate` with its cache as state | the cache is written under 4-tuples and read under 5-tuples, so it never hits; induction on n |
| C19 | `subpartitions` | structural induction on mu |
| C20 | `compositions`, `peak_compositions` | strong induction |
| C21 | corner removal, all branches | case analysis on the row |
| C22 | `growth_diagram` double loop | local rule lemma, induction over the cells |
| C23 | `contains`, `shape`, `shifted_shape`, `from_shape`, `skew` | membership lemmas; permutation invariance of the counting loop |
| C24, C25 | `_horizontal_strips` (level by level), `_subsets`, `_semistandard` | characterise the strips, then induction on the largest entry |
| C26 | `_count_semistandard` | same recursion as C24/C25, with the pruning justified by the weight |
| C27 | `nchoosek` | falling factorials |
| C28 | `SymmetricMonomial` product and `polynomial()` | coefficient comparison: both sides symmetric, product in fewer variables suffices |
| C29 | `schur` | Bender-Knuth style: adjacent variables can be swapped because two-step chains of strips have independent rows |
| C30 | `stable_grothendieck` | same with corner factors |
| C31 | `_vectorize` with `degree_bound`, `truncate` | filter lemmas |
| C32 | `Permutation.__init__`, `__call__`, `__mul__`, `inverse`, `__eq__` | functions on the integers |
| C33 | `__len__`, descent sets | inversion sets under right multiplication by a generator |
| C34 | `get_reduced_word`, `from_word` | well-founded recursion on the length, C33 |
| C35 | `get_reduced_words` with its cache as state | invariant on the cache |
| C36 | `__mod__` with an arbitrary choice function | 0-Hecke action |
| C37 | `hecke_levels` generators as a state machine over the shared cache | invariant for histories in which generators with the same key do not overlap; interleaved histories violate the claim: witness |
| C38 | `cached_value` | invariant on the cache over all histories |
| C39, C40 | Hecke insertion and its inverse on tableaux as rows | row insertion invariants, reverse step inverts forward step |
| C41 | box operators | bilinear extension, list lemma |
| C42 | `_check_record`, `standardize`, record tables, cache of `push` | admissible records standardize back to the recording tableau |
| C43 | `rref` branch by branch with python's floor division, `is_expressable` | every step keeps the rational row space; echelon invariant by columns |
| C44 | `_expansion` with fuel for the recursion, `_get_term_from_lowest_degree`, `negate_beta`, `mn_stable_grothendieck` | tableau generating functions are unitriangular for (degree, then reverse lexicographic); finite closed box of partitions; number of terms of the leading coefficient decreases |
| C45 | `is_partition`, `is_strict_partition`, `sort`, `trim`, `union`, `complement` | rows as functions (`getD`), counting boxes of a column for `complement` |
| C46 | corner search on a diagonal, `successors`, the two decompositions, decrements, `shifted_ribbon` | inductions along the recursion of the code, lists compared row by row |
| C47 | `_rpp_vertical_strips`, `_rpp_horizontal_strips`, `_semistandard_rpp`, `ReversePlanePartition.weight` | strips characterised row by row, then a generic induction on the largest letter |
| C48 | `_count_semistandard_rpp` | generic counting recursion; symmetry by interchanging the last two letters (bijection between intermediate shapes) |
| C49 | `_dual_stable_grothendieck`, `mp_dual_stable_grothendieck` | C48 and `_vectorize`; weights are bounded by the number of boxes |
| C50 | `dual_grothendieck_expansion`, `mp_dual_grothendieck_expansion` | rpps of maximal weight are semistandard tableaux, so the family is unitriangular from the highest degree down |
| C51 | `_vertical_strips`, `_shifted_horizontal_strips`, `_shifted_vertical_strips`, `_semistandard_marked`, `_semistandard_shifted_marked` | the strip loops list exactly the strips; then the generic induction on the largest letter with 2n letters; no assertion fails because strips of strict shapes are strict |
| C52 | `_count_semistandard_marked`, `_count_semistandard_shifted_marked`, `weight` | recursion on the largest letter; symmetry by exchanging two neighbouring pairs of letters i', i (transfer operators for horizontal and vertical strips commute) |
| C53 | `schur_s/q/p`, `stable_grothendieck_s/q/p`, `mn_stable_grothendieck_p/q` | C52 and the generic theorem about `_vectorize`; no negative power of beta is left because every box has an entry |
| C54 | `P/Q/GP/GQ/mn_GP/mn_GQ/S_expansion` | P and GP are unitriangular, Q and GQ have leading coefficient 2^l, by dominance for marked tableaux; generic theorem about `_expansion` on a triangular family |
| C55 | `_slow_vectorize`, `_slow_*` | counts of a list of tableaux by weight; the symmetry theorems of C29, C48, C52 give the assertion; coefficients compared one by one |
| C56 | `standard`, `standard_shifted_marked` | induction on |mu|: the largest entry sits in a corner; removing it gives a standard tableau of the smaller shape |
| C57 | `from_involution_word`, `get_involution_word`, `involution_length` | one letter raises ell + #pairs + #negations by two or is a descent; conjugation keeps #pairs and #negations; a commuting letter adds one of them |
| C58 | `from_fpf_involution_word`, `get_fpf_involution_word(s)`, `get_fpf_atoms`, `fpf_involution_length` | a strict word ends in i exactly if i is a descent that is not a cycle; a run on 1..n and on 1..n+2 differ by the factor s_(n+1); removing trailing cycles keeps the words |
| C59 | permutations.py 500-684 (the generators of levels run without interruption), words.py peaks | Yang-Baxter operators for the 0-Hecke action: the generating functions of decreasing words commute, hence symmetric coefficients; levels = words whose prefixes pass the test; regrouping of monomials |
| C60 | permutations.py 936-948, 958-965, 1081-1102, 1149-1162 | Strong exchange by induction on the word; lifting property through the 0-Hecke action; chain property by induction on the length; deletions of a reduced word are distinct; parity of the length |
| C61 | permutations.py 47-49, 68-82, 819-828, 915-925, 950-956 | Loop invariant `cycle.map w = cycle.tail ++ [nxt]` and conservation of the numbers; strong induction on the exponent; the constructor accepts exactly one-line notations |
| C62 | tableaux.py 657-724, 875-899, 1286-1299 | Both strip generators list every strict partition inside the given one; letter-by-letter generation (`genTabs`) with two letters per round |
| C63 | tableaux.py 831-852 | A strict partition is a set of parts; columns and rows of mu/nu become weights of a line of a vertex model; two lines commute by a local operator that is moved through the sites (Lemmas/VertexPair, Vertex, MrppLink, MrppComm) |
| C64 | symmetric.py `dual_stable_grothendieck_p/q/s`, `mp_…`, `_slow_…_p/q` | C62/C63 give counts and symmetry; `dualVectorize_spec`; for s the staircase shapes are a translate of the skew shape |
| C65 | symmetric.py `gp_expansion`, `gq_expansion`, `mp_gp_expansion`, `mp_gq_expansion`, `gs_expansion` | marked reverse plane partitions of maximal weight are shifted marked tableaux, so the families are triangular; general span expansion theorem of C54 |
| C66 | permutations.py `rothe_diagram`, `code`, `shape` and their involution versions | rows of the diagram as finite sets; descents of the code are descents of the permutation; induction on the size for surjectivity |
| C67 | permutations.py `get_grassmannian`, `is_grassmannian`, `grassmannians` | the rows of the Rothe diagram of the inverse are the parts; a permutation is determined by its rows (C66); C19 for the list of shapes |
| C68 | permutations.py `get_inv_grassmannian`, `is_inv_grassmannian`, `inv_grassmannians` | products of disjoint transpositions, conjugated by the longest element; rows of the involution code; number of arcs over i changes by at most one, so all smaller values occur |
| C69 | permutations.py `get_fpf_grassmannian`, `fpf_grassmannians`, `is_fpf_grassmannian`, `_fpf_grassmannian_shape` | invariant of the loop that pairs fixed points; the code lemma of C68 with strict inequality |
| C70 | insertion.py `FState`, `orthogonal_hecke`, `symplectic_hecke` and inverses | trace of an insertion along rows and then columns; each inverse transition undoes one transition; comparison of the traces of consecutive letters gives the order of the recorded boxes, so standardization recovers the recording tableau |
| C71 | insertion.py `FState`, `orthogonal_hecke` | boxes of consecutive letters: weakly increasing letters give primed entries in increasing rows then unprimed entries in increasing columns, decreasing letters the same after `negate`, strictly |
| C72 | insertion.py `hecke` with a record | C42; entries of neighbouring boxes in the order of insertion |
| C73 | permutations.py `all` | itertools.permutations lists the rearrangements; sign patterns are binary expansions; the constructor is a bijection from one-line notations of length n |
| C74 | permutations.py `involutions` | queue invariant: processed and queued vectors are distinct, below the first one and closed under decrements; delta vectors are in bijection with perfect matchings; signs of cycles are in bijection with subsets of the numbers that are at most their image |
| C75 | permutations.py `fpf_involutions`, `minfpf` | level t consists of the involutions of fpf length t, because an ascent is conjugated to a descent and raises the length by two; every other involution than the first has a descent that can be conjugated |
| C76 | tableaux.py 139-163, 221-233 | a list of boxes sorted by the key is unique, so that the word is found from an explicit list of boxes; the word is cut exactly at the ends of rows |
| C77 | crystals.py 375-383, 409-429 | prefixes of increasing words are increasing, so the break loses nothing; induction on k; a record determines the factor lengths |
| C78 | tableaux.py 221-302 (multisetvalued=True) | a column is decoded from its heads and tails; the letter that f_i changes stays in its column, and the new column word is again one of a column; the two neighbouring columns stay comparable because of the signature rule |
| C79 | tableaux.py 252-302 (multisetvalued=False) | the entries i and i+1 of a skew tableau read column by column; the unpaired i that is changed determines what its neighbours contain |
| C80 | tableaux.py 196-219 | doubling is an order isomorphism; a condition on all pairs of entries of two boxes is a condition on the maximum and the minimum |
| C81 | crystals.py 48-82, 113-137 | C24, C25 and C79: the generated tableaux are all semistandard ones, and the operators keep them; a single-valued tableau stays single-valued because the number of entries does not change; breadth-first search invariant |
| C82 | crystals.py 9-17 | f_i and e_i are inverse partial injections that change the number of entries i by one; for one entry per box both kinds of e_i are None on the same tableaux |
| C83 | partitions.py 458-493 | the border is a chain of boxes from south-west to north-east; a rim is given by the number of border boxes in each row; the helper enumerates the choices row by row |
| C84 | tableaux.py 1025-1049, 1063-1082 | a filling is the sequence of its level sets, chosen from the largest letter down; the corner condition of the code is the condition of the definition for the boxes of the new level; _add_rim recovers nu from the boxes |
| C85 | tableaux.py 1084-1126; partitions.py 495-502 | fillings of a rim correspond to words read from north-east to south-west, and a new box at the north-east end must be an extreme letter of the word, subject to the box beside it; counting the extensions by the kind of the last letter gives the recurrence |
| C86 | tableaux.py 1128-1174 | as C84 with 2p levels; the flag s of the code ensures that each number is used |
| C87 | tableaux.py 1176-1225; partitions.py 495-502 | as C85; boxes on the diagonal only start a rim, which explains the special cases |
| C88 | insertion.py 127-134, 152-160 `hecke`, `inverse_hecke` | reverse insertion is defined on every pair of a standardised recording tableau and an increasing tableau (Lemmas/InsertionSurj); every semistandard Q standardises to an admissible record |
| C89 | insertion.py 127-134 `hecke`, `HState.next` | inserting a letter into a row is a sequence of 0-Hecke moves between row-letter words; the Demazure action satisfies the relations |
| C90 | crystals.py 48-82, 358-407; permutations.py 500-537 | C77 (factorizations are records), C72/C88 (insertion is onto), C89 (the word stays a Hecke word of w), C78/C79 (f_i on recording tableaux), C81 (components) |
| C91 | symmetric.py 302-359 the four `*_doublebar` functions | the loop over remove_(shifted_)inner_corners lists each nu minus corners once (C21); each summand is the generating function of the tableaux of that skew shape in any variables; shapes of different summands are disjoint (Lemmas/DoublebarPoly, DoublebarFam) |
| C92 | symmetric.py 302-359; partitions.py `subpartitions` | the sum over shapes without corners turns the branching rule for skew shapes into a matrix product, one letter at a time (barGen_succ, barGen_add in Lemmas/Doublebar) |
| C93 | symmetric.py 302-359 | inclusion and exclusion over the outer corners: the shapes between x and mu that differ from x by corners form a Boolean lattice or have a box that can be switched (sum_lessCorners) |
| C94 | dualops.py 1-35 | the loop finds the first free row of the diagonal (diagonalRow_spec); conditions are rewritten as membership of parts |
| C95 | dualops.py 1-35 | from the description by parts of C94 |
| C96 | operators.py 12-34 | corners and added boxes in terms of parts (inner_iff, adds_iff); the loop over the items is a sum (foldlM_sum) |
| C97 | operators.py 12-34 | from C96, by membership of parts |
| C98 | operators.py 37-54 | the loop over the diagonals adds the letters of a bar move of C91 box by box (moveSum_step); barGen_succ of C92 |
| C99 | operators.py 57-91 | induction along the loops with the strips of C94 described by parts |
| C100 | operators.py 57-111 | refuted: the loops never use `coefficient`; what they compute is the sum over the keys without the factors v[mu] |
| C101 | symmetric.py 701-790 | powers of x + 1 expanded by choosing subsets (choices); symmetry: for marked tableaux the matrix of one variable is inverse to that of marked reverse plane partitions at -x (vertex model, VertexInv, TransLine, TransSteps), for semistandard tableaux row by row (TransRow) |
| C102 | symmetric.py 408-429, 728-790 | inverse transfer matrices (rppMat_transMat), then scaling by beta (mrpp_scale, trans_scale) |
| C103 | symmetric.py 527-529, 566-576 | the terms of highest degree are those of Schur S-, P- and Q-polynomials (wCount_choices_top), so the families are triangular; the general theorems of C44, C50 and C65 |
| C104 | permutations.py 458-492 | strong exchange (C60) for the other index; the sum of the letters grows with every push, and the letters of a word that is not yet reduced are bounded by the rank of y |
| C105 | permutations.py 458-492 | the path of the wire r in the word without the pushed letter only moves up (push_right, push_left), so no letter is pushed twice (wireInv_push) |
| C106 | permutations.py 418-445 | lowering and raising are monotone in the Bruhat order on involutions, which gives the subword property, the grading by involution_length and the exchange property; then as in C104 |
| C107 | permutations.py 363-410 | a reduced word after 1, 3, 5, ... is a reduced involution word (C106), which gives the exchange to the right; to the left, strong exchange for the pair e, e + 1 or for the pair of their images; letters past the size of y's word commute only if they are odd, so the loop stops |
| C108 | permutations.py 750-763, 804-813, 978-989, 1008-1042 | an atom in whose inverse the last of three consecutive entries is never the smallest is a sequence of blocks: cycles, and pairs a, -b of a noncrossing matching of negated numbers, sorted by their last entries (induction over descents and ascents, both directions); such sequences are atoms; every other atom has a predecessor under the first move, by half braid relations at the start of a word, and a sequence with matched pairs is reached by the second move from one with a pair less; a weighted sum of positions grows with each move, so the loop stops |
| C109 | permutations.py 430-434, 446-455 | C108 for the list of atoms, strong exchange in a reduced word of the atom x for y below z, then C106 |
| C110 | permutations.py 1104-1147, 1164-1177 | each case of tau is a conjugation or a product by reflections that go up; the involution length is the rank function of the Bruhat order on involutions; a description of the covers by the two cycles involved, kept by conjugation with a simple reflection, by induction on the length |
| C111 | permutations.py 1179-1201 | criterion for the Bruhat order by counting values, parity of these counts for the step that removes a descent, so the order is graded; covers are those of C110, and those without fixed points are conjugations |
| C112 | partitions.py 286-302 | the loop moves the shape by some p rows and q columns; separate invariants for shapes without shift, off the diagonal, and on the diagonal determine p and q from the shape |
| C113 | partitions.py 27-31, 220-222, 372-408, 504-525; utils.py 33-40 | the new box is in the first free row of the column, and the assertion says that the row ends there; C19 and C23 for the other functions; the generator fails on the first composition 1 + 1 + ... + 1 |
| C114 | partitions.py 243-265 | rows as functions on indices; the gaps are filled from the last row upwards, keeping the result below nu0; the last loop lowers all rows by the inner length of the last row |
| C115 | partitions.py 532-671 | step lemma on sets of boxes (the strip consists of corners; the new box of a row or column avoids the rows and columns of the strip), then induction over the cells and the rows |
| C116 | tableaux.py 329-335, 1246-1273 | induction over the rows and over the columns; the boxes of q are the current shape, so that the last box of a row or column is the marked corner |
| C117 | vst.py 89-95, 137-152, 545-567 | the bits of v run over the subsets of the allowed boxes; equal letters are adjacent, so that the other boxes are the last ones of the rows and the first ones of the columns of each letter; expand the product |
| C118 | vst.py 41-76, 121-135 | a box that is continued in another one has the same entry; case distinction by the sign |
| C119 | vst.py 154-171 | induction over the loops; a box with grouping 1 is continued in a box with the same entry |
| C120 | vst.py 633-642 | true along rows; false along columns, where the grouping of the wrong box is used (negation with a witness) |
| C121 | insertion.py 13-99 | bump locations are monotone, so rows are changed from the last to the first; the entries kept are a prefix; induction over columns and over the diagonal |
| C122 | insertion.py 34-99 | the column read from the top is pre ++ kept ++ inserted ++ post at each step, whatever is passed on to the next row; each part is compared with the bump location |
| C123 | tableaux.py 165-168, 496-516 | the loop makes the two dictionaries of the unprimed and primed entries; the sorted order of the boxes decides which of i, i+1 comes first |
| C124 | symmetric.py 610-621 (check=False), 792-829 | grouping by a function that is defined on all tableaux; the sum over the groups is a sum over fibres |
| C125 | vst.py 33-39 | the absolute values on the diagonal increase strictly, because the boxes between two diagonal boxes belong to the shape |
| C126 | symmetric.py 504-509 | C44 and the fact that transposition is an injection on partitions, so the dict comprehension overwrites nothing |
| C127 | polynomials.py 150-157 | the loops compute the additive extension of the substitution of monomials; it agrees with the evaluation homomorphism of Mathlib's multivariate polynomials |
| C128 | tableaux.py 184-194 | in a list of boxes that is strictly sorted by columns, the number of earlier boxes is the index |
| C129 | tableaux.py 438-439 | false: the code compares the identity of a tuple with an int and adds up pairs, so that it returns 0 or raises (negation with a witness); the part without repetitions is proved |
| C130 | symmetric.py 531-544 | induction on the recursion; C64 for the values of the factors, C28 for the products; C65 for the expansion of constants |
| C131 | vst.py 30-31, 82-87 | each group has exactly one box with grouping 0, which is its upper end (C119) |
| C132 | vectors.py 116-125, 189-191 | no zeros are stored (C11); floor division by its two inequalities |
| C133 | tableaux.py 79-87, 429-436, 476-481 | rows of a diagram are intervals; induction over the boxes |

Findings about the code (violations) are recorded in the last section as they are proved.

## Axioms per theorem

Every theorem named in MANIFEST.json depends on a subset of {`propext`, `Classical.choice`, `Quot.sound`}; `vcheck`
lists the set for each of them and replays the proofs in the kernel. Concrete examples that are checked by evaluation
use `decide +kernel`, which adds no axiom.

## Code that is modelled

| file | modelled | not modelled |
|---|---|---|
| cached.py | all | the `cls` argument, unhashable arguments |
| polynomials.py | arithmetic, powers, substitution, `__call__`, coefficients, truncation, division by constants, comparison, `set_variable` style access | printing, hashing, `divide_linear` (raises NameError) |
| vectors.py | arithmetic, products with multipliers, powers, `rref`, `is_expressable`, `is_singleton`, `is_nonnegative`, `is_positive`, `__floordiv__` | printing |
| words.py | crystal operators, quasisymmetrize, zeta functions, ascents, peaks | printing, wiring diagrams (drawing) |
| partitions.py | transpose, generate, subpartitions, compositions, corner removal, growth_diagram, shifted growth diagrams, contains, shapes, skew, skew keys, partitions from skew shapes, recognisers and normal forms, union, complement, corner search, successors, shifted decompositions, ribbons, rims, boxes added to rows and columns | printing |
| vst.py | `is_valid_position`, the constructor, `all`, `weight`, `is_semistandard`, singletons, unprime, horizontal and vertical groups, `in_same_group`, `hinge`, `is_highest_weight`, `primed_groups` | transitions between valued-set tableaux, `_interstandard`, drawing |
| tableaux.py | semistandard and set-valued generation and counting, reverse plane partitions, marked and shifted marked tableaux, marked reverse plane partitions (generation, counting, weights), the methods used by insertion, reading words, descent sets, `is_semistandard`, `is_standard`, crystal operators, KOG and KLG tableaux (generation and counting), tableaux of shifted growth diagrams, `is_shifted_column_superstandard`, `rpp_excess`, `size`, `abs_sum`, `shape`, `setvalued_excess`, `counter` | printing, accessors such as `get_row`, `set`, `clear` that the modelled code does not use |
| symmetric.py | SymmetricMonomial, products, schur, stable_grothendieck, mn_stable_grothendieck, truncate, polynomial, lowest/highest degree terms, `_expansion`, schur/grothendieck/mn_grothendieck/dual_grothendieck/mp_dual_grothendieck_expansion, dual_stable_grothendieck_p/q/s (also `mp_`, slow) and their expansions, dual_stable_grothendieck, schur_s/q/p, stable_grothendieck_s/q/p, mn_stable_grothendieck_p/q, P/Q/GP/GQ/mn_GP/mn_GQ/S/GS_expansion, the four `*_doublebar` functions, `_slow_vectorize` and all slow functions, refined functions, the transposed dual functions and their expansions, `omega_schur_expansion`, `gp_free_expansion` | printing |
| permutations.py | group operations, length, Rothe diagrams, codes, Grassmannian permutations, descents, reduced words, Demazure product, hecke_levels, reflections, cycles, powers, Bruhat covers, involution words, fpf-involution words and atoms, symplectic and involution Hecke levels (uninterrupted), the four stable Grothendieck polynomials, the generators `all`, `involutions`, `fpf_involutions`, Little pushes and bumps of reduced words, of involution words and of fpf-involution words, the atoms and involution words of an involution, `tau` and the transitions of involutions and of fpf-involutions | printing, `get_atoms_d`, the dictionaries that keep results of `get_atoms` |
| insertion.py | HState (Hecke insertion) and FState (shifted Hecke insertion), their inverses, records, cache, `unprime_diagonal` and `setvalued_column_insert`, the wrappers `hecke`, `orthogonal_hecke`, `symplectic_hecke` and inverses | arguments `p`, `q` of `insertion_tableaux`, the printing of states |
| crystals.py | CrystalMixin (edges, components, strings), TableauCrystalGenerator, WordCrystalGenerator | dot and png files, ShiftedCrystalGenerator |
| boxes.py | all operations of BoxOperator | `commutator` (always raises), printing |
| dualops.py | all | intervals with negative bounds (AssertionError for a < 0) |
| operators.py | 12-111 | `_extract` and the functions `compare*`, which print |

The header comment of each file in `Verif/Model` states the simplifications made there.

## Findings

Violations that are proved (negation with a concrete witness, next to a `_partial` theorem for the part that holds):

* C129: `Tableau.rpp_excess` never returns a number other than 0: it tests `v is self.get(i + 1, j)` with a tuple on the left and an
  unpacked int on the right, and adds up pairs (tableaux.py 438-439).  The method is not called in the repository.
* C120: `ValuedSetTableau.in_same_group` is False for the two boxes of a vertical group: it uses the grouping of the box in the smaller
  row instead of the larger one (vst.py 638-641).
* C04: `(-x)**-2` is `-x^-2` (polynomials.py `__pow__`, branch for a single monomial with coefficient -1).
* C09: `p < p` and `p > p` are True for every polynomial `p` (polynomials.py `__lt__`, `__gt__`).
* C19: `Partition.subpartitions(mu, nu)` ignores the rows of `nu` below row `len(mu)`, so for `nu` longer than `mu` it
  returns partitions that do not contain `nu`.
* C37: two simultaneously active generators `hecke_levels` with the same key corrupt `HECKE_CACHE`: levels are appended
  twice, and later calls return wrong levels.
* C28: `SymmetricPolynomial.polynomial()` is not injective when coefficients involve the variables x_i
  (`C28_injective_needs_free`); the theorem therefore assumes coefficients free of these variables.
* C39: inverse Hecke insertion is wrong for words with non-positive letters: the word (-1, -1) is returned as (-1, 0)
  (`C39_needs_positive`); the default value 0 of a missing box is used as minus infinity.
* C44: `_expansion` recurses forever when a leading coefficient is not a Laurent polynomial in beta alone, e.g. x_5
  (`C44_other_coefficients`); the theorems assume coefficients in Z[beta, 1/beta].
* C54: `S_expansion` raises AssertionError on `S_(2,1)`, because the polynomials `S_mu` are linearly dependent
  (`C54_S_expansion_fails`).
* C64: `dual_stable_grothendieck_s(n, mu, nu)` cuts `nu` off after `len(mu)` parts, so it is not zero for `mu = (2,)`,
  `nu = (1, 1)` (`C64_s_not_contained`).
* C65: `gs_expansion` raises AssertionError on `gs_(2,1)` (`C65_gs_expansion_fails`).
* C67: `is_grassmannian` is False for permutations with exactly one descent and w(1) = 1, e.g. s_2
  (`C67_is_grassmannian_fails`); the argument of `grassmannians`, `inv_grassmannians` and `fpf_grassmannians` does not bound the
  rank: `grassmannians(3)` yields a permutation of rank 4 (`C67_grassmannians_rank`, `C68_inv_grassmannians_rank`,
  `C69_fpf_grassmannians_rank`).
* C69: `is_fpf_grassmannian(get_fpf_grassmannian(3, 1))` is False; `is_fpf_grassmannian` is True for Permutation(2, 3, 1) and for
  s_2, because `not` binds more strongly than `and` in its first line (`C69_is_fpf_grassmannian_fails`).
* C58: `get_fpf_involution_word` does not terminate on `Permutation(-1,-2)` and `get_fpf_involution_words` raises IndexError on
  `Permutation(-1)`, although both pass the assertion `is_fpf_involution` (`C58_signed`).
* C78: on skew shapes the multiset-valued `f_crystal_operator` does not keep the shape, because `from_crystal_reading_word` puts
  every column at the top and leaves no column out (`C78_skew_fails`).
* C82: `istrings` calls `e_crystal_operator(i)` with the default `multisetvalued=True`, also for crystals of set-valued tableaux; in
  the crystal of shape (1) with entries up to 2 the element {1,2} is in no string (`C82_fails`).
* C97: an operator of operators.py returns the int 0 when there are no terms, and raises AttributeError when it is applied to
  this int (`C97_zero_raises`).
* C100: `operator_shifted_row_remove` and `operator_shifted_column_remove` never use the coefficients of the vector, so they
  are not linear (`C100_row_remove_not_linear`, `C100_column_remove_not_linear`), and `operator_R(1)((2, 1))` has the
  coefficient x at (1) where the product of the two operators gives x^2 (`C100_operator_R`).
* C103: `js_expansion` raises an AssertionError on js_(2,1) in two variables, in any order of the tableaux
  (`C103_js_expansion_fails`), as `gs_expansion` does on gs_(2,1).
* C109: `involution_little_bump(word, j, k)` takes the first atom that fits, although different atoms can give different
  involutions: for the word (1, 2) and the pair 1, 3 the two atoms lead to (2, 3) and to (1, 3) (`C109_choice`).  The order in
  which a level of `get_atoms` is run through is the order of a set; evaluation up to rank 7 found no case where this order matters.
* C110: `upper_involution_transitions(r)` stops at the rank n, but tau(r, n + 1) can cover the involution: the docstring is
  not met for the involution (2, 1) and r = 2 (`C110_upper_misses`). Nothing beyond n + 1 is missed for r <= n
  (`C110_upper_bound`).
* C113: `shifted_ribbons(n)` raises IndexError for every n >= 1 (`C113_ribbons`): `shifted_ribbon` trims the inner partition, which is
  then shorter than the outer one, and `generate` reads its first entry in every row.
* C114: `from_skew` runs forever on the empty set (`C114_empty`).
* C130: `gp_free_expansion` raises AttributeError on nonzero constants, because the product over the parts of `()` is the int 1
  (`C130_constant`, `C130_constant_one`).

Observations made while reading the code (not theorems):

* polynomials.py: `divide_linear` raises NameError; `substitute` returns the int 0 for a polynomial without terms; the
  constructor keeps zero coefficients; `hash` uses the representation of the terms, which need not agree for polynomials that are `==`.
* partitions.py: the cache of `generate` is read under 5-tuples and written under 4-tuples, so that it never hits;
  `_printables` passes `shifted` as `mu` and raises TypeError; `successors` never adds a new row.
* symmetric.py: `variables` and `is_symmetric` use attributes that do not exist.
* permutations.py: `little_bump((1, 2, 1), Permutation())` raises `Exception`: the loop looks for a deletion that gives `y`
  without testing that it is a reduced word (C104_raises).
* permutations.py: `w ** 0` raises TypeError; the cached generators of involution and symplectic Hecke levels have the
  same defect as `hecke_levels`.
* boxes.py: `commutator` calls `X(-1)` and always raises AssertionError.
* operators.py: `operator_shifted_row_remove` and `..._column_remove` ignore the argument `coefficient`.
* tableaux.py: the strip functions trim only one trailing zero (enough for the shapes that occur, C24);
  `rpp_excess` is broken; with FRENCH = True `Tableau(str(t)) == t` fails for several rows.
* insertion.py: the second `elif` in `HState.push` repeats an earlier condition and is never executed.
* insertion.py: `setvalued_column_insert` can leave a repeated primed entry in a box (example next to C122: a box becomes 2', 2', 2).
* vectors.py: `__mul__` uses only the left operand's multiplier.
* crystals.py: `URTShiftedCrystalGenerator` and `MRTShiftedCrystalGenerator` define the property `tableaux` without a setter, and
  `_setup_tableaux` assigns to it, so that they cannot be constructed; `istrings` of a `WordCrystalGenerator` raises AttributeError,
  since its elements are tuples; `edges` also tries the operator with index 0.
* cached.py: the class is not part of the key; mutable values are returned by reference.
* C60: `Permutation.upper_transitions` and `lower_transitions` never yield anything, whatever their docstrings say: they test
  `(t * self * t).length`, and conjugation does not change the parity of the length
  (`C60_transitions_violate_docstring`). `involution_bruhat_covers` and `fpf_involution_bruhat_covers` raise AttributeError
  for Permutation(4, 3, 2, 1), since `from_involution_word` returns None on words that are not reduced
  (`C60_involution_covers_raise`).
* C61: `w ** 0` raises TypeError for every permutation; `star` is not an involution on permutations with w(1) = 1; `cycles`
  raises ValueError if there are signs.
* C70: `inverse_orthogonal_hecke(*orthogonal_hecke((-1, -1)))` is `((-1, 0), (1, 2))` (`C70_needs_positive`), for the same reason
  as in C39. `inverse_symplectic_hecke(*symplectic_hecke((2, 1, 2)))` is `((2, 1, 1), (1, 2, 3))` (`C70_symplectic_odd`):
  `symplectic_hecke` does not check that its argument is a symplectic Hecke word.
* C85: `KOG_counts` and `KLG_counts` do not check that nu/mu is a rim; for nu = (3, 2), mu = (1), p = 2 they return 1
  (`C85_not_a_rim`).
* C74: `Permutation.involutions(n, signed=True, fpf=True)` ignores `fpf` for even `n` and yields also involutions with fixed
  points (`C74_signed_fpf`).
