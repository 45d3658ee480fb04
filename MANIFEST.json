{
 "claims": [
  {
   "property": "C01",
   "status": "proved",
   "theorems": [
    "Verif.C01_add_coeff",
    "Verif.C01_add_canonical"
   ],
   "note": "All coefficients of sums, differences, negation; canonical storage."
  },
  {
   "property": "C02",
   "status": "proved",
   "theorems": [
    "Verif.C02_expo_bijective",
    "Verif.C02_den_coeff",
    "Verif.C02_mul_den",
    "Verif.C02_ring_laws",
    "Verif.C02_mul_canonical"
   ],
   "note": "Product in Mathlib's AddMonoidAlgebra; ring laws up to ==; no stored zeros."
  },
  {
   "property": "C03",
   "status": "proved",
   "theorems": [
    "Verif.C03_eq_iff",
    "Verif.C03_toBool_iff",
    "Verif.C03_nnz_card"
   ],
   "note": ""
  },
  {
   "property": "C04",
   "status": "partial",
   "theorems": [
    "Verif.C04_pow_nonneg",
    "Verif.C04_pow_negative_partial",
    "Verif.C04_pow_none_iff",
    "Verif.C04_pow_negative_violated"
   ],
   "note": "The property fails for coefficient -1 and even negative exponents (C04_pow_negative_violated); everything else is proved."
  },
  {
   "property": "C05",
   "status": "proved",
   "theorems": [
    "Verif.C05_substitute",
    "Verif.C05_substitute_add",
    "Verif.C05_substitute_mul",
    "Verif.C05_substitute_generators"
   ],
   "note": "substitute with a polynomial value; an int value e is the constant polynomial e."
  },
  {
   "property": "C06",
   "status": "proved",
   "theorems": [
    "Verif.C06_coefficient_coeff",
    "Verif.C06_coefficient_free",
    "Verif.C06_decomposition"
   ],
   "note": ""
  },
  {
   "property": "C07",
   "status": "proved",
   "theorems": [
    "Verif.C07_truncate",
    "Verif.C07_totalDegree",
    "Verif.C07_totalDegree_coeff"
   ],
   "note": ""
  },
  {
   "property": "C08",
   "status": "proved",
   "theorems": [
    "Verif.C08_floordiv_mod",
    "Verif.C08_truediv"
   ],
   "note": ""
  },
  {
   "property": "C09",
   "status": "partial",
   "theorems": [
    "Verif.C09_lt_partial",
    "Verif.C09_trans_partial",
    "Verif.C09_gt_eq",
    "Verif.C09_irreflexive_violated"
   ],
   "note": "The property fails: p < p is True (C09_irreflexive_violated). Proved: < is the reflexive coefficientwise order."
  },
  {
   "property": "C10",
   "status": "proved",
   "theorems": [
    "Verif.C10_xor"
   ],
   "note": ""
  },
  {
   "property": "C11",
   "status": "proved",
   "theorems": [
    "Verif.C11_coefficients",
    "Verif.C11_noZero",
    "Verif.C11_eq_iff",
    "Verif.C11_len"
   ],
   "note": ""
  },
  {
   "property": "C12",
   "status": "proved",
   "theorems": [
    "Verif.C12_mul_coeff",
    "Verif.C12_mul_bilinear",
    "Verif.C12_mul_linear",
    "Verif.C12_pow"
   ],
   "note": ""
  },
  {
   "property": "C13",
   "status": "proved",
   "theorems": [
    "Verif.C13_inverse",
    "Verif.C13_cut",
    "Verif.C13_inverse_args"
   ],
   "note": ""
  },
  {
   "property": "C14",
   "status": "proved",
   "theorems": [
    "Verif.C14_one_letter",
    "Verif.C14_string_lengths"
   ],
   "note": ""
  },
  {
   "property": "C15",
   "status": "proved",
   "theorems": [
    "Verif.C15_quasisymmetrize",
    "Verif.C15_no_zero"
   ],
   "note": ""
  },
  {
   "property": "C16",
   "status": "proved",
   "theorems": [
    "Verif.C16_monotone",
    "Verif.C16_unimodal"
   ],
   "note": ""
  },
  {
   "property": "C17",
   "status": "proved",
   "theorems": [
    "Verif.Partition.C17_transpose"
   ],
   "note": ""
  },
  {
   "property": "C18",
   "status": "proved",
   "theorems": [
    "Verif.Partition.C18_generate",
    "Verif.Partition.C18_all",
    "Verif.Partition.C18_history"
   ],
   "note": "Every cache whose keys are the 4-tuples written by generate; C18_history shows all fully consumed call sequences stay in this class; partially consumed generators yield prefixes."
  },
  {
   "property": "C19",
   "status": "partial",
   "theorems": [
    "Verif.Partition.C19_subpartitions_partial",
    "Verif.Partition.C19_violated"
   ],
   "note": "The property fails when nu has more rows than mu (C19_violated); proved otherwise."
  },
  {
   "property": "C20",
   "status": "proved",
   "theorems": [
    "Verif.Partition.C20_compositions",
    "Verif.Partition.C20_peak_compositions"
   ],
   "note": ""
  },
  {
   "property": "C21",
   "status": "proved",
   "theorems": [
    "Verif.Partition.C21_remove_inner_corner",
    "Verif.Partition.C21_remove_inner_corners",
    "Verif.Partition.C21_remove_shifted_inner_corner",
    "Verif.Partition.C21_remove_shifted_inner_corners"
   ],
   "note": ""
  },
  {
   "property": "C22",
   "status": "proved",
   "theorems": [
    "Verif.Partition.C22_growth_diagram"
   ],
   "note": ""
  },
  {
   "property": "C23",
   "status": "proved",
   "theorems": [
    "Verif.Partition.C23_contains",
    "Verif.Partition.C23_contains_shifted",
    "Verif.Partition.C23_from_shape",
    "Verif.Partition.C23_from_shifted_shape",
    "Verif.Partition.C23_skew",
    "Verif.Partition.C23_skew_shifted"
   ],
   "note": ""
  },
  {
   "property": "C24",
   "status": "proved",
   "theorems": [
    "Verif.Tableaux.C24_semistandard",
    "Verif.Tableaux.C24_terminates"
   ],
   "note": ""
  },
  {
   "property": "C25",
   "status": "proved",
   "theorems": [
    "Verif.Tableaux.C25_setvalued"
   ],
   "note": ""
  },
  {
   "property": "C26",
   "status": "proved",
   "theorems": [
    "Verif.Tableaux.C26_counts"
   ],
   "note": ""
  },
  {
   "property": "C27",
   "status": "proved",
   "theorems": [
    "Verif.Tableaux.C27_nchoosek",
    "Verif.Tableaux.C27_subsets",
    "Verif.Tableaux.C27_exact"
   ],
   "note": ""
  },
  {
   "property": "C28",
   "status": "proved",
   "theorems": [
    "Verif.Symm.C28_monomial",
    "Verif.Symm.C28_monomial_mul",
    "Verif.Symm.C28_mul",
    "Verif.Symm.C28_add",
    "Verif.Symm.C28_smul",
    "Verif.Symm.C28_ofMono",
    "Verif.Symm.C28_closed",
    "Verif.Symm.C28_no_assertion",
    "Verif.Symm.C28_cache",
    "Verif.Symm.C28_injective",
    "Verif.Symm.C28_injective_needs_free"
   ],
   "note": ""
  },
  {
   "property": "C29",
   "status": "proved",
   "theorems": [
    "Verif.Symm.C29_schur",
    "Verif.Symm.C29_symmetric"
   ],
   "note": ""
  },
  {
   "property": "C30",
   "status": "proved",
   "theorems": [
    "Verif.Symm.C30_stable_grothendieck",
    "Verif.Symm.C30_boxes"
   ],
   "note": ""
  },
  {
   "property": "C31",
   "status": "proved",
   "theorems": [
    "Verif.Symm.C31_degree_bound",
    "Verif.Symm.C31_truncate",
    "Verif.Symm.C31_coefficients",
    "Verif.Symm.C31_truncate_twice"
   ],
   "note": ""
  },
  {
   "property": "C32",
   "status": "proved",
   "theorems": [
    "Verif.Perm.C32_construct_iff",
    "Verif.Perm.C32_construct",
    "Verif.Perm.C32_eq_iff",
    "Verif.Perm.C32_mul",
    "Verif.Perm.C32_inverse",
    "Verif.Perm.C32_group",
    "Verif.Perm.C32_s"
   ],
   "note": ""
  },
  {
   "property": "C33",
   "status": "proved",
   "theorems": [
    "Verif.Perm.C33_len_defined",
    "Verif.Perm.C33_right",
    "Verif.Perm.C33_left",
    "Verif.Perm.C33_zero",
    "Verif.Perm.C33_inverse",
    "Verif.Perm.C33_nodup"
   ],
   "note": ""
  },
  {
   "property": "C34",
   "status": "proved",
   "theorems": [
    "Verif.Perm.C34_reduced_word",
    "Verif.Perm.C34_len_least",
    "Verif.Perm.C34_depth"
   ],
   "note": ""
  },
  {
   "property": "C35",
   "status": "proved",
   "theorems": [
    "Verif.Perm.C35_reduced_words",
    "Verif.Perm.C35_exhausted",
    "Verif.Perm.C35_create"
   ],
   "note": "All interleavings of generator steps over the shared dictionary; python's recursion limit is not modelled (the recursion depth is at most len(w) + 1)."
  },
  {
   "property": "C36",
   "status": "proved",
   "theorems": [
    "Verif.Perm.C36_choice",
    "Verif.Perm.C36_assoc",
    "Verif.Perm.C36_unit",
    "Verif.Perm.C36_generator",
    "Verif.Perm.C36_idempotent",
    "Verif.Perm.C36_additive",
    "Verif.Perm.C36_word"
   ],
   "note": ""
  },
  {
   "property": "C37",
   "status": "partial",
   "theorems": [
    "Verif.Perm.C37_levels_partial",
    "Verif.Perm.C37_stops_partial",
    "Verif.Perm.C37_progress_partial",
    "Verif.Perm.C37_interleaved_violated"
   ],
   "note": "The property fails when two generators with equal n and ascent_bound are interleaved (C37_interleaved_violated); proved for all histories without such overlap."
  },
  {
   "property": "C38",
   "status": "proved",
   "theorems": [
    "Verif.Cached.C38_transparent",
    "Verif.Cached.C38_terminates",
    "Verif.Cached.C38_plain_unique",
    "Verif.Cached.C38_once",
    "Verif.Cached.C38_raise"
   ],
   "note": ""
  },
  {
   "property": "C39",
   "status": "proved",
   "theorems": [
    "Verif.Insertion.C39_round_trip",
    "Verif.Insertion.C39_injective",
    "Verif.Insertion.C39_needs_positive"
   ],
   "note": "Both versions and every sound cache; C39_needs_positive shows that positivity of the letters is needed."
  },
  {
   "property": "C40",
   "status": "proved",
   "theorems": [
    "Verif.Insertion.C40_tableaux",
    "Verif.Insertion.C40_transposed"
   ],
   "note": ""
  },
  {
   "property": "C41",
   "status": "proved",
   "theorems": [
    "Verif.Boxes.C41_relations",
    "Verif.Boxes.C41_mul",
    "Verif.Boxes.C41_assoc",
    "Verif.Boxes.C41_distrib",
    "Verif.Boxes.C41_linear",
    "Verif.Boxes.C41_words",
    "Verif.Boxes.C41_unit",
    "Verif.Boxes.C41_noRepeat"
   ],
   "note": ""
  },
  {
   "property": "C42",
   "status": "proved",
   "theorems": [
    "Verif.Insertion.C42_round_trip",
    "Verif.Insertion.C42_cache"
   ],
   "note": "Records and words in positive integers; an int record entry 0 or a negative one is outside the statement."
  },
  {
   "property": "C43",
   "status": "proved",
   "theorems": [
    "Verif.C43_rref",
    "Verif.C43_is_expressable"
   ],
   "note": "Spec: Verif/Spec/LinAlg.lean (row span in the functions from N to Q, echelon form). Keys must be comparable (sorted), coefficients ints."
  },
  {
   "property": "C44",
   "status": "proved",
   "theorems": [
    "Verif.Symm.C44_schur",
    "Verif.Symm.C44_grothendieck",
    "Verif.Symm.C44_mn_grothendieck",
    "Verif.Symm.C44_mn_stable_grothendieck",
    "Verif.Symm.C44_closed",
    "Verif.Symm.C44_other_coefficients"
   ],
   "note": "Termination: a fuel bound exists above which the result is constant. tableauSum in Props/Expansion.lean is the generating function over the lists that C24/C25 characterise. C44_other_coefficients: for coefficients outside Z[beta,1/beta] the recursion need not end."
  },
  {
   "property": "C45",
   "status": "proved",
   "theorems": [
    "Verif.Partition.C45_recognisers",
    "Verif.Partition.C45_sort",
    "Verif.Partition.C45_trim",
    "Verif.Partition.C45_union",
    "Verif.Partition.C45_complement"
   ],
   "note": "is_strict_partition does not look at the sign of the last entry; the theorem states what it accepts"
  },
  {
   "property": "C46",
   "status": "proved",
   "theorems": [
    "Verif.Partition.C46_corners",
    "Verif.Partition.C46_successors",
    "Verif.Partition.C46_vertical",
    "Verif.Partition.C46_rims",
    "Verif.Partition.C46_decrement",
    "Verif.Partition.C46_ribbon"
   ],
   "note": "caches of the two decompositions: see C38; successors never adds a row"
  },
  {
   "property": "C47",
   "status": "proved",
   "theorems": [
    "Verif.Tableaux.C47_semistandard_rpp",
    "Verif.Tableaux.C47_weight"
   ],
   "note": "strips of an rpp do not know the inner shape; the model keeps the code's own filter"
  },
  {
   "property": "C48",
   "status": "proved",
   "theorems": [
    "Verif.Tableaux.C48_count_rpp",
    "Verif.Tableaux.C48_symmetric"
   ],
   "note": "symmetry proved by exchanging two neighbouring letters (Lemmas/Transfer, RppSymm)"
  },
  {
   "property": "C49",
   "status": "proved",
   "theorems": [
    "Verif.Symm.C49_dual_stable_grothendieck",
    "Verif.Symm.C49_mp_dual_stable_grothendieck",
    "Verif.Symm.C49_not_contained"
   ],
   "note": "rppSum in Props/Dual.lean is the generating function over the set that C47 characterises"
  },
  {
   "property": "C50",
   "status": "proved",
   "theorems": [
    "Verif.Symm.C50_dual_grothendieck",
    "Verif.Symm.C50_mp_dual_grothendieck"
   ],
   "note": "termination: a fuel bound exists above which the result is constant; coefficients outside Z[beta,1/beta]: see C44_other_coefficients"
  },
  {
   "property": "C51",
   "status": "proved",
   "theorems": [
    "Verif.Tableaux.C51_semistandard_marked",
    "Verif.Tableaux.C51_semistandard_shifted_marked",
    "Verif.Tableaux.C51_not_strict"
   ],
   "note": "IsTableauOf and IsMarked in Spec/Tableau.lean; the model is a set, the order in which python iterates over sets is not observable"
  },
  {
   "property": "C52",
   "status": "proved",
   "theorems": [
    "Verif.Tableaux.C52_weight",
    "Verif.Tableaux.C52_count_marked",
    "Verif.Tableaux.C52_count_shifted_marked",
    "Verif.Tableaux.C52_symmetric_marked",
    "Verif.Tableaux.C52_symmetric_shifted_marked"
   ],
   "note": "symmetry of the set-valued shifted case (GP, GQ) is proved in Lemmas/MarkedSymm"
  },
  {
   "property": "C53",
   "status": "proved",
   "theorems": [
    "Verif.Symm.C53_schur_s",
    "Verif.Symm.C53_schur_q",
    "Verif.Symm.C53_schur_p",
    "Verif.Symm.C53_stable_grothendieck_s",
    "Verif.Symm.C53_stable_grothendieck_q",
    "Verif.Symm.C53_stable_grothendieck_p",
    "Verif.Symm.C53_mn_stable_grothendieck_p",
    "Verif.Symm.C53_mn_stable_grothendieck_q"
   ],
   "note": "tabSum in Lemmas/MarkedPoly.lean is the generating function over the sets that C51 characterises"
  },
  {
   "property": "C54",
   "status": "proved",
   "theorems": [
    "Verif.Symm.C54_P_expansion",
    "Verif.Symm.C54_Q_expansion",
    "Verif.Symm.C54_GP_expansion",
    "Verif.Symm.C54_GQ_expansion",
    "Verif.Symm.C54_mn_GP_expansion",
    "Verif.Symm.C54_mn_GQ_expansion",
    "Verif.Symm.C54_leading",
    "Verif.Symm.C54_not_in_span",
    "Verif.Symm.C54_S_expansion_fails"
   ],
   "note": "fuel bounds the recursion depth, the theorem gives a sufficient fuel; S_expansion fails on S_(2,1) (C54_S_expansion_fails)"
  },
  {
   "property": "C55",
   "status": "proved",
   "theorems": [
    "Verif.Symm.C55_schur",
    "Verif.Symm.C55_stable_grothendieck",
    "Verif.Symm.C55_schur_s",
    "Verif.Symm.C55_stable_grothendieck_s",
    "Verif.Symm.C55_schur_q",
    "Verif.Symm.C55_schur_p",
    "Verif.Symm.C55_stable_grothendieck_q",
    "Verif.Symm.C55_stable_grothendieck_p",
    "Verif.Symm.C55_dual_stable_grothendieck",
    "Verif.Symm.C55_assertion"
   ],
   "note": "the list of tableaux is an argument of the model, any list without repetition of the elements of the generated set"
  },
  {
   "property": "C56",
   "status": "proved",
   "theorems": [
    "Verif.Tableaux.C56_standard",
    "Verif.Tableaux.C56_standard_shifted_marked",
    "Verif.Tableaux.C56_not_strict"
   ],
   "note": "the recursion is bounded by |mu|, which is shown to be enough"
  },
  {
   "property": "C57",
   "status": "proved",
   "theorems": [
    "Verif.Perm.C57_strict",
    "Verif.Perm.C57_length",
    "Verif.Perm.C57_not_strict",
    "Verif.Perm.C57_get_involution_word",
    "Verif.Perm.C57_not_involution"
   ],
   "note": "letters are >= 0; the Demazure product used in the statement is the spec of C36"
  },
  {
   "property": "C58",
   "status": "proved",
   "theorems": [
    "Verif.Perm.C58_start",
    "Verif.Perm.C58_strict",
    "Verif.Perm.C58_not_strict",
    "Verif.Perm.C58_length",
    "Verif.Perm.C58_get_fpf_involution_word",
    "Verif.Perm.C58_get_fpf_involution_words",
    "Verif.Perm.C58_get_fpf_atoms",
    "Verif.Perm.C58_atoms_shortest",
    "Verif.Perm.C58_not_fpf",
    "Verif.Perm.C58_signed"
   ],
   "note": "proved for unsigned fixed-point-free involutions, and the behaviour of the assertions elsewhere; the failures on signed input are proved in C58_signed; caches of complete results are not modelled"
  },
  {
   "property": "C59",
   "status": "proved",
   "theorems": [
    "Verif.Perm.C59_stable_grothendieck",
    "Verif.Perm.C59_involution",
    "Verif.Perm.C59_signed_involution",
    "Verif.Perm.C59_symplectic",
    "Verif.Perm.C59_assertions"
   ],
   "note": "Spec/StableG.lean: DecProducts, UniProducts, HeckeWord, InvolutionHeckeWord, SymplecticHeckeWord, Enumerates. C59_stable_grothendieck, C59_involution, C59_signed_involution, C59_symplectic give the value for every cache entry left by complete runs and every fuel above an explicit bound; C59_assertions the remaining inputs."
  },
  {
   "property": "C60",
   "status": "proved",
   "theorems": [
    "Verif.Perm.C60_bruhat_covers",
    "Verif.Perm.C60_graded",
    "Verif.Perm.C60_reflections",
    "Verif.Perm.C60_transitions",
    "Verif.Perm.C60_transitions_violate_docstring",
    "Verif.Perm.C60_involution_covers_raise"
   ],
   "note": "Spec/Bruhat.lean: Swap, BruhatStep, BruhatLE, BruhatCovers. C60_bruhat_covers is the main claim, C60_graded the rank function, C60_reflections the reflections. The docstrings of the transitions are violated: C60_transitions, C60_transitions_violate_docstring. C60_involution_covers_raise is a witness for the AttributeError."
  },
  {
   "property": "C61",
   "status": "proved",
   "theorems": [
    "Verif.Perm.C61_cycle",
    "Verif.Perm.C61_cycles",
    "Verif.Perm.C61_cycles_signed",
    "Verif.Perm.C61_pow",
    "Verif.Perm.C61_star",
    "Verif.Perm.C61_longest"
   ],
   "note": "C61_cycle, C61_cycles, C61_cycles_signed, C61_pow, C61_star, C61_longest. Findings: `w ** 0` raises TypeError (identity takes no argument); star is not an involution if w(1) = 1."
  },
  {
   "property": "C62",
   "status": "proved",
   "theorems": [
    "Verif.Tableaux.C62_semistandard_marked_rpp",
    "Verif.Tableaux.C62_not_strict",
    "Verif.Tableaux.C62_weight"
   ],
   "note": "C62_semistandard_marked_rpp, C62_not_strict, C62_weight."
  },
  {
   "property": "C63",
   "status": "proved",
   "theorems": [
    "Verif.Tableaux.C63_count_marked_rpp",
    "Verif.Tableaux.C63_symmetric"
   ],
   "note": "C63_count_marked_rpp, C63_symmetric (skew shapes, both versions)."
  },
  {
   "property": "C64",
   "status": "proved",
   "theorems": [
    "Verif.Symm.C64_dual_stable_grothendieck_p",
    "Verif.Symm.C64_dual_stable_grothendieck_q",
    "Verif.Symm.C64_mp_dual_stable_grothendieck_p",
    "Verif.Symm.C64_mp_dual_stable_grothendieck_q",
    "Verif.Symm.C64_dual_stable_grothendieck_s",
    "Verif.Symm.C64_s_not_contained",
    "Verif.Symm.C64_not_contained",
    "Verif.Symm.C64_slow_p",
    "Verif.Symm.C64_slow_q"
   ],
   "note": "Includes a finding for dual_stable_grothendieck_s: a nu longer than mu is cut off, so the value for shapes not contained in each other need not be zero."
  },
  {
   "property": "C65",
   "status": "proved",
   "theorems": [
    "Verif.Symm.C65_gp_expansion",
    "Verif.Symm.C65_gq_expansion",
    "Verif.Symm.C65_mp_gp_expansion",
    "Verif.Symm.C65_mp_gq_expansion",
    "Verif.Symm.C65_leading",
    "Verif.Symm.C65_gs_expansion_fails"
   ],
   "note": "gs_expansion: the failure on gs_(2,1) in two variables is proved (C65_gs_expansion_fails)."
  },
  {
   "property": "C66",
   "status": "proved",
   "theorems": [
    "Verif.Perm.C66_rothe_diagram",
    "Verif.Perm.C66_involution_rothe_diagram",
    "Verif.Perm.C66_code",
    "Verif.Perm.C66_code_injective",
    "Verif.Perm.C66_code_surjective",
    "Verif.Perm.C66_involution_code",
    "Verif.Perm.C66_fpf_involution_code",
    "Verif.Perm.C66_shape",
    "Verif.Perm.C66_involution_shape"
   ],
   "note": ""
  },
  {
   "property": "C67",
   "status": "proved",
   "theorems": [
    "Verif.Perm.C67_get_grassmannian",
    "Verif.Perm.C67_get_grassmannian_any",
    "Verif.Perm.C67_is_grassmannian",
    "Verif.Perm.C67_is_grassmannian_fails",
    "Verif.Perm.C67_grassmannians",
    "Verif.Perm.C67_grassmannians_rank"
   ],
   "note": "is_grassmannian rejects permutations with one descent and w(1) = 1, such as s_2, and grassmannians(3) contains a permutation of rank 4; both are stated as theorems."
  },
  {
   "property": "C68",
   "status": "proved",
   "theorems": [
    "Verif.Perm.C68_shape_strict",
    "Verif.Perm.C68_get_inv_grassmannian",
    "Verif.Perm.C68_is_inv_grassmannian",
    "Verif.Perm.C68_inv_grassmannians",
    "Verif.Perm.C68_inv_grassmannians_rank"
   ],
   "note": "inv_grassmannians(4) contains an involution of rank 5 (stated as a theorem)."
  },
  {
   "property": "C69",
   "status": "proved",
   "theorems": [
    "Verif.Perm.C69_get_fpf_grassmannian",
    "Verif.Perm.C69_fpf_grassmannians",
    "Verif.Perm.C69_fpf_grassmannians_rank",
    "Verif.Perm.C69_is_fpf_grassmannian",
    "Verif.Perm.C69_is_fpf_grassmannian_fails"
   ],
   "note": "Finding: is_fpf_grassmannian rejects get_fpf_grassmannian(3, 1) and accepts permutations that are no fixed-point-free involutions (C69_is_fpf_grassmannian_fails)."
  },
  {
   "property": "C70",
   "status": "proved",
   "theorems": [
    "Verif.FInsertion.C70_round_trip",
    "Verif.FInsertion.C70_default",
    "Verif.FInsertion.C70_injective",
    "Verif.FInsertion.C70_symplectic_even",
    "Verif.FInsertion.C70_needs_positive",
    "Verif.FInsertion.C70_symplectic_odd"
   ],
   "note": "Finding: inverse_orthogonal_hecke is wrong for non-positive letters (C70_needs_positive), and inverse_symplectic_hecke for words with odd letters that are no symplectic Hecke words (C70_symplectic_odd); neither function checks its input. symplectic_hecke on symplectic Hecke words with odd letters is modelled but no theorem is proved about it."
  },
  {
   "property": "C71",
   "status": "proved",
   "theorems": [
    "Verif.FInsertion.C71_tableaux"
   ],
   "note": ""
  },
  {
   "property": "C72",
   "status": "proved",
   "theorems": [
    "Verif.Insertion.C72_tableaux"
   ],
   "note": ""
  },
  {
   "property": "C73",
   "status": "proved",
   "theorems": [
    "Verif.Perm.C73_unsigned",
    "Verif.Perm.C73_signed"
   ],
   "note": ""
  },
  {
   "property": "C74",
   "status": "proved",
   "theorems": [
    "Verif.Perm.C74_unsigned",
    "Verif.Perm.C74_fpf",
    "Verif.Perm.C74_signed",
    "Verif.Perm.C74_signed_fpf"
   ],
   "note": "Finding: involutions(n, signed=True, fpf=True) for even n yields all signed involutions, also those with fixed points (C74_signed_fpf)."
  },
  {
   "property": "C75",
   "status": "proved",
   "theorems": [
    "Verif.Perm.C75_levels",
    "Verif.Perm.C75_minfpf",
    "Verif.Perm.C75_same"
   ],
   "note": ""
  },
  {
   "property": "C76",
   "status": "proved",
   "theorems": [
    "Verif.Crystal.C76_crystal",
    "Verif.Tab.C76_read_made",
    "Verif.Tab.C76_made_read",
    "Verif.Tab.C76_columns"
   ],
   "note": ""
  },
  {
   "property": "C77",
   "status": "proved",
   "theorems": [
    "Verif.Crystal.C77_factorizations",
    "Verif.Crystal.C77_arrays"
   ],
   "note": ""
  },
  {
   "property": "C78",
   "status": "proved",
   "theorems": [
    "Verif.Tab.C78_reading_word",
    "Verif.Tab.C78_f",
    "Verif.Tab.C78_e",
    "Verif.Tab.C78_strings",
    "Verif.Tab.C78_skew_fails"
   ],
   "note": "Finding: for skew shapes f_crystal_operator does not keep the shape (C78_skew_fails)."
  },
  {
   "property": "C79",
   "status": "proved",
   "theorems": [
    "Verif.Tab.C79_f",
    "Verif.Tab.C79_e",
    "Verif.Tab.C79_strings"
   ],
   "note": ""
  },
  {
   "property": "C80",
   "status": "proved",
   "theorems": [
    "Verif.Tab.C80_semistandard",
    "Verif.Tab.C80_standard"
   ],
   "note": ""
  },
  {
   "property": "C81",
   "status": "proved",
   "theorems": [
    "Verif.Crystal.C81_operator",
    "Verif.Crystal.C81_edges",
    "Verif.Crystal.C81_components"
   ],
   "note": ""
  },
  {
   "property": "C82",
   "status": "partial",
   "theorems": [
    "Verif.Crystal.C82_istrings_partial",
    "Verif.Crystal.C82_fails"
   ],
   "note": "Proved for setvalued=False (C82_istrings_partial). The code violates the claim for set-valued tableaux: istrings calls e_crystal_operator with its default multisetvalued=True, and the tableau {1,2} of shape (1) is missing in istrings(1) (C82_fails)."
  },
  {
   "property": "C83",
   "status": "proved",
   "theorems": [
    "Verif.Tableaux.C83_rims",
    "Verif.Tableaux.C83_rims_trailing_zero",
    "Verif.Tableaux.C83_rims_raises"
   ],
   "note": ""
  },
  {
   "property": "C84",
   "status": "proved",
   "theorems": [
    "Verif.Tableaux.C84_kog",
    "Verif.Tableaux.C84_kog_by_shape"
   ],
   "note": ""
  },
  {
   "property": "C85",
   "status": "proved",
   "theorems": [
    "Verif.Tableaux.C85_kog_counts",
    "Verif.Tableaux.C85_kog_counts_neg",
    "Verif.Tableaux.C85_kog_counts_by_shape",
    "Verif.Tableaux.C85_kog_counts_lengths",
    "Verif.Tableaux.C85_not_a_rim"
   ],
   "note": "Observation: on skew shapes that are not rims the counts are still returned and mean nothing (C85_not_a_rim)."
  },
  {
   "property": "C86",
   "status": "proved",
   "theorems": [
    "Verif.Tableaux.C86_klg",
    "Verif.Tableaux.C86_klg_by_shape"
   ],
   "note": ""
  },
  {
   "property": "C87",
   "status": "proved",
   "theorems": [
    "Verif.Tableaux.C87_klg_counts",
    "Verif.Tableaux.C87_klg_counts_neg",
    "Verif.Tableaux.C87_klg_counts_by_shape",
    "Verif.Tableaux.C87_klg_counts_lengths"
   ],
   "note": ""
  },
  {
   "property": "C88",
   "status": "proved",
   "theorems": [
    "Verif.Insertion.C88_onto",
    "Verif.Insertion.C88_bijection"
   ],
   "note": ""
  },
  {
   "property": "C89",
   "status": "proved",
   "theorems": [
    "Verif.Insertion.C89_reading_word",
    "Verif.Insertion.C89_demazure",
    "Verif.Insertion.C89_same"
   ],
   "note": ""
  },
  {
   "property": "C90",
   "status": "proved",
   "theorems": [
    "Verif.Crystal.C90_elements",
    "Verif.Crystal.C90_order",
    "Verif.Crystal.C90_operator",
    "Verif.Crystal.C90_edges",
    "Verif.Crystal.C90_components"
   ],
   "note": "Observation: CrystalMixin.istrings cannot be used for word crystals; self[x] is a pair of tuples there and has no e_crystal_operator."
  },
  {
   "property": "C91",
   "status": "proved",
   "theorems": [
    "Verif.Symm.C91_q_doublebar",
    "Verif.Symm.C91_p_doublebar",
    "Verif.Symm.C91_s_doublebar",
    "Verif.Symm.C91_doublebar"
   ],
   "note": ""
  },
  {
   "property": "C92",
   "status": "proved",
   "theorems": [
    "Verif.Symm.C92_q_coproduct",
    "Verif.Symm.C92_p_coproduct",
    "Verif.Symm.C92_s_coproduct",
    "Verif.Symm.C92_coproduct",
    "Verif.Symm.C92_nil_shifted",
    "Verif.Symm.C92_nil"
   ],
   "note": ""
  },
  {
   "property": "C93",
   "status": "proved",
   "theorems": [
    "Verif.Symm.C93_q_undo",
    "Verif.Symm.C93_p_undo",
    "Verif.Symm.C93_s_undo",
    "Verif.Symm.C93_undo"
   ],
   "note": ""
  },
  {
   "property": "C94",
   "status": "proved",
   "theorems": [
    "Verif.Dualops.C94_horizontal",
    "Verif.Dualops.C94_vertical",
    "Verif.Dualops.C94_assertion",
    "Verif.Dualops.C94_parts"
   ],
   "note": ""
  },
  {
   "property": "C95",
   "status": "proved",
   "theorems": [
    "Verif.Dualops.C95_separated",
    "Verif.Dualops.C95_horizontal_after_vertical",
    "Verif.Dualops.C95_vertical_after_horizontal",
    "Verif.Dualops.C95_exceptions"
   ],
   "note": ""
  },
  {
   "property": "C96",
   "status": "proved",
   "theorems": [
    "Verif.Operators.C96_shifted_add",
    "Verif.Operators.C96_tuple"
   ],
   "note": ""
  },
  {
   "property": "C97",
   "status": "proved",
   "theorems": [
    "Verif.Operators.C97_square",
    "Verif.Operators.C97_commute",
    "Verif.Operators.C97_braid",
    "Verif.Operators.C97_braid'",
    "Verif.Operators.C97_braid_zero",
    "Verif.Operators.C97_zero_raises"
   ],
   "note": "As the code stands, an operator raises AttributeError on the int 0 that an operator returns for 'no terms' (C97_zero_raises); the relations are stated with 0 sent to 0."
  },
  {
   "property": "C98",
   "status": "proved",
   "theorems": [
    "Verif.Operators.C98_one",
    "Verif.Operators.C98_many"
   ],
   "note": ""
  },
  {
   "property": "C99",
   "status": "proved",
   "theorems": [
    "Verif.Operators.C99_row_remove",
    "Verif.Operators.C99_column_remove"
   ],
   "note": ""
  },
  {
   "property": "C100",
   "status": "partial",
   "theorems": [
    "Verif.Operators.C100_row_remove_partial",
    "Verif.Operators.C100_column_remove_partial",
    "Verif.Operators.C100_row_remove_not_linear",
    "Verif.Operators.C100_column_remove_not_linear",
    "Verif.Operators.C100_operator_R"
   ],
   "note": "False as stated (C100_row_remove_not_linear, C100_column_remove_not_linear): the code ignores the coefficients of the vector. Proved: the result is the sum over the keys of the results for the keys, so linearity holds for vectors with coefficients 1. C100_operator_R gives a wrong coefficient of operator_R(1)((2, 1))."
  },
  {
   "property": "C101",
   "status": "proved",
   "theorems": [
    "Verif.Symm.C101_transposed",
    "Verif.Symm.C101_transposed_marked",
    "Verif.Symm.C101_transposed_s"
   ],
   "note": ""
  },
  {
   "property": "C102",
   "status": "proved",
   "theorems": [
    "Verif.Symm.C102_duality_p",
    "Verif.Symm.C102_duality_q"
   ],
   "note": ""
  },
  {
   "property": "C103",
   "status": "proved",
   "theorems": [
    "Verif.Symm.C103_jp_expansion",
    "Verif.Symm.C103_jq_expansion",
    "Verif.Symm.C103_j_expansion",
    "Verif.Symm.C103_js_expansion_fails"
   ],
   "note": "js_expansion is not covered by the claim: it raises an AssertionError on js_(2,1) in two variables (C103_js_expansion_fails)."
  },
  {
   "property": "C104",
   "status": "proved",
   "theorems": [
    "Verif.Perm.C104_push",
    "Verif.Perm.C104_bump",
    "Verif.Perm.C104_bump_at",
    "Verif.Perm.C104_assertion",
    "Verif.Perm.C104_raises"
   ],
   "note": "For a y of smaller length little_bump can raise Exception, as for the word (1, 2, 1) and the identity (C104_raises)."
  },
  {
   "property": "C105",
   "status": "proved",
   "theorems": [
    "Verif.Perm.C105_little"
   ],
   "note": ""
  },
  {
   "property": "C106",
   "status": "proved",
   "theorems": [
    "Verif.Perm.C106_push",
    "Verif.Perm.C106_bump",
    "Verif.Perm.C106_assertion"
   ],
   "note": "The form with two further arguments is C109."
  },
  {
   "property": "C107",
   "status": "proved",
   "theorems": [
    "Verif.Perm.C107_push",
    "Verif.Perm.C107_bump",
    "Verif.Perm.C107_assertion",
    "Verif.Perm.C107_bump_at"
   ],
   "note": ""
  },
  {
   "property": "C108",
   "status": "proved",
   "theorems": [
    "Verif.Perm.C108_atoms",
    "Verif.Perm.C108_min_atom",
    "Verif.Perm.C108_demazure",
    "Verif.Perm.C108_involution_words",
    "Verif.Perm.C108_not_involution"
   ],
   "note": ""
  },
  {
   "property": "C109",
   "status": "proved",
   "theorems": [
    "Verif.Perm.C109_bump_at",
    "Verif.Perm.C109_choice",
    "Verif.Perm.C109_assertion"
   ],
   "note": "C109_choice is the finding that the result depends on which atom is listed first."
  },
  {
   "property": "C110",
   "status": "proved",
   "theorems": [
    "Verif.Perm.C110_tau",
    "Verif.Perm.C110_covers",
    "Verif.Perm.C110_lower",
    "Verif.Perm.C110_upper",
    "Verif.Perm.C110_upper_bound",
    "Verif.Perm.C110_upper_misses",
    "Verif.Perm.C110_assertion"
   ],
   "note": "C110_upper_misses is the finding that j = n + 1 is left out against the docstring. The model of tau is for unsigned permutations."
  },
  {
   "property": "C111",
   "status": "proved",
   "theorems": [
    "Verif.Perm.C111_covers",
    "Verif.Perm.C111_lower",
    "Verif.Perm.C111_upper",
    "Verif.Perm.C111_assertion"
   ],
   "note": ""
  },
  {
   "property": "C112",
   "status": "proved",
   "theorems": [
    "Verif.Partition.C112_ends",
    "Verif.Partition.C112_form",
    "Verif.Partition.C112_key",
    "Verif.Partition.C112_key_shifted"
   ],
   "note": ""
  },
  {
   "property": "C113",
   "status": "proved",
   "theorems": [
    "Verif.Partition.C113_column",
    "Verif.Partition.C113_column_shifted",
    "Verif.Partition.C113_row",
    "Verif.Partition.C113_isin",
    "Verif.Partition.C113_merge",
    "Verif.Partition.C113_complements",
    "Verif.Partition.C113_utils",
    "Verif.Partition.C113_ribbons"
   ],
   "note": ""
  },
  {
   "property": "C114",
   "status": "proved",
   "theorems": [
    "Verif.Partition.C114_plain",
    "Verif.Partition.C114_shifted",
    "Verif.Partition.C114_empty"
   ],
   "note": ""
  },
  {
   "property": "C115",
   "status": "proved",
   "theorems": [
    "Verif.Partition.C115_growth",
    "Verif.Partition.C115_word"
   ],
   "note": "the list of labels `reasons` for printing is not modelled"
  },
  {
   "property": "C116",
   "status": "proved",
   "theorems": [
    "Verif.Tableaux.C116_diagram",
    "Verif.Tableaux.C116_word"
   ],
   "note": "equality with orthogonal Hecke insertion, which the tests check, is not proved"
  },
  {
   "property": "C117",
   "status": "proved",
   "theorems": [
    "Verif.Vst.C117_all",
    "Verif.Vst.C117_weight",
    "Verif.Vst.C117_dual"
   ],
   "note": "the rest of vst.py (transitions) is not modelled"
  },
  {
   "property": "C118",
   "status": "proved",
   "theorems": [
    "Verif.Vst.C118_semistandard",
    "Verif.Vst.C118_singletons",
    "Verif.Vst.C118_unprime",
    "Verif.Vst.C118_unprime_diagonal",
    "Verif.Vst.C118_all"
   ],
   "note": "singletons with arguments is not modelled"
  },
  {
   "property": "C119",
   "status": "proved",
   "theorems": [
    "Verif.Vst.C119_horizontals",
    "Verif.Vst.C119_verticals"
   ],
   "note": ""
  },
  {
   "property": "C120",
   "status": "partial",
   "theorems": [
    "Verif.Vst.C120_same_group_partial",
    "Verif.Vst.C120_violated"
   ],
   "note": "False along columns: the code uses the grouping of the box in the smaller row, but a primed box with grouping 1 is continued in the row before it (C120_violated). Proved along rows."
  },
  {
   "property": "C121",
   "status": "proved",
   "theorems": [
    "Verif.Unprime.C121_column",
    "Verif.Unprime.C121_unprime",
    "Verif.Unprime.C121_fixed",
    "Verif.Unprime.C121_corner"
   ],
   "note": ""
  },
  {
   "property": "C122",
   "status": "proved",
   "theorems": [
    "Verif.Unprime.C122_column_increasing"
   ],
   "note": ""
  },
  {
   "property": "C123",
   "status": "proved",
   "theorems": [
    "Verif.Tab.C123_descents",
    "Verif.Tab.C123_asserts"
   ],
   "note": ""
  },
  {
   "property": "C124",
   "status": "proved",
   "theorems": [
    "Verif.Symm.C124_refined",
    "Verif.Symm.C124_sum_p",
    "Verif.Symm.C124_sum_q"
   ],
   "note": ""
  },
  {
   "property": "C125",
   "status": "proved",
   "theorems": [
    "Verif.Vst.C125_hinge",
    "Verif.Vst.C125_all"
   ],
   "note": ""
  },
  {
   "property": "C126",
   "status": "proved",
   "theorems": [
    "Verif.Symm.C126_omega"
   ],
   "note": ""
  },
  {
   "property": "C127",
   "status": "proved",
   "theorems": [
    "Verif.C127_call"
   ],
   "note": ""
  },
  {
   "property": "C128",
   "status": "proved",
   "theorems": [
    "Verif.Tab.C128_superstandard"
   ],
   "note": ""
  },
  {
   "property": "C129",
   "status": "partial",
   "theorems": [
    "Verif.Tab.C129_rpp_excess_partial",
    "Verif.Tab.C129_zero",
    "Verif.Tab.C129_violated"
   ],
   "note": "False in general: `v is self.get(i + 1, j)` compares a tuple with an int, so the result is always 0 (C129_violated, C129_zero). Proved for tableaux without repetitions."
  },
  {
   "property": "C130",
   "status": "proved",
   "theorems": [
    "Verif.Symm.C130_gp_free",
    "Verif.Symm.C130_constant",
    "Verif.Symm.C130_constant_one"
   ],
   "note": "Termination is not claimed."
  },
  {
   "property": "C131",
   "status": "proved",
   "theorems": [
    "Verif.Vst.C131_primed_groups",
    "Verif.Vst.C131_primed_groups_args",
    "Verif.Vst.C131_highest_weight"
   ],
   "note": ""
  },
  {
   "property": "C132",
   "status": "proved",
   "theorems": [
    "Verif.C132_singleton",
    "Verif.C132_nonnegative",
    "Verif.C132_floordiv",
    "Verif.C132_mul_floordiv"
   ],
   "note": "is_nonnegative, is_positive and // for int coefficients."
  },
  {
   "property": "C133",
   "status": "proved",
   "theorems": [
    "Verif.Tab.C133_shape",
    "Verif.Tab.C133_counter",
    "Verif.Tab.C133_totals"
   ],
   "note": ""
  }
 ]
}
