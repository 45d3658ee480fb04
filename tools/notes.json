{
 "C01": {
  "note": "All coefficients of sums, differences, negation; canonical storage."
 },
 "C02": {
  "note": "Product in Mathlib's AddMonoidAlgebra; ring laws up to ==; no stored zeros."
 },
 "C04": {
  "note": "The property fails for coefficient -1 and even negative exponents (C04_pow_negative_violated); everything else is proved."
 },
 "C05": {
  "note": "substitute with a polynomial value; an int value e is the constant polynomial e."
 },
 "C09": {
  "note": "The property fails: p < p is True (C09_irreflexive_violated). Proved: < is the reflexive coefficientwise order."
 },
 "C18": {
  "note": "Every cache whose keys are the 4-tuples written by generate; C18_history shows all fully consumed call sequences stay in this class; partially consumed generators yield prefixes."
 },
 "C19": {
  "note": "The property fails when nu has more rows than mu (C19_violated); proved otherwise."
 },
 "C35": {
  "note": "All interleavings of generator steps over the shared dictionary; python's recursion limit is not modelled (the recursion depth is at most len(w) + 1)."
 },
 "C37": {
  "note": "The property fails when two generators with equal n and ascent_bound are interleaved (C37_interleaved_violated); proved for all histories without such overlap."
 },
 "C39": {
  "note": "Both versions and every sound cache; C39_needs_positive shows that positivity of the letters is needed."
 },
 "C42": {
  "note": "Records and words in positive integers; an int record entry 0 or a negative one is outside the statement."
 },
 "C43": {
  "note": "Spec: Verif/Spec/LinAlg.lean (row span in the functions from N to Q, echelon form). Keys must be comparable (sorted), coefficients ints."
 },
 "C44": {
  "note": "Termination: a fuel bound exists above which the result is constant. tableauSum in Props/Expansion.lean is the generating function over the lists that C24/C25 characterise. C44_other_coefficients: for coefficients outside Z[beta,1/beta] the recursion need not end."
 },
 "C45": {
  "note": "is_strict_partition does not look at the sign of the last entry; the theorem states what it accepts"
 },
 "C46": {
  "note": "caches of the two decompositions: see C38; successors never adds a row"
 },
 "C47": {
  "note": "strips of an rpp do not know the inner shape; the model keeps the code's own filter"
 },
 "C48": {
  "note": "symmetry proved by exchanging two neighbouring letters (Lemmas/Transfer, RppSymm)"
 },
 "C49": {
  "note": "rppSum in Props/Dual.lean is the generating function over the set that C47 characterises"
 },
 "C50": {
  "note": "termination: a fuel bound exists above which the result is constant; coefficients outside Z[beta,1/beta]: see C44_other_coefficients"
 },
 "C51": {
  "note": "IsTableauOf and IsMarked in Spec/Tableau.lean; the model is a set, the order in which python iterates over sets is not observable"
 },
 "C52": {
  "note": "symmetry of the set-valued shifted case (GP, GQ) is proved in Lemmas/MarkedSymm"
 },
 "C53": {
  "note": "tabSum in Lemmas/MarkedPoly.lean is the generating function over the sets that C51 characterises"
 },
 "C54": {
  "note": "fuel bounds the recursion depth, the theorem gives a sufficient fuel; S_expansion fails on S_(2,1) (C54_S_expansion_fails)"
 },
 "C55": {
  "note": "the list of tableaux is an argument of the model, any list without repetition of the elements of the generated set"
 },
 "C56": {
  "note": "the recursion is bounded by |mu|, which is shown to be enough"
 },
 "C57": {
  "note": "letters are >= 0; the Demazure product used in the statement is the spec of C36"
 },
 "C58": {
  "note": "proved for unsigned fixed-point-free involutions, and the behaviour of the assertions elsewhere; the failures on signed input are proved in C58_signed; caches of complete results are not modelled"
 },
 "C59": {
  "note": "Spec/StableG.lean: DecProducts, UniProducts, HeckeWord, InvolutionHeckeWord, SymplecticHeckeWord, Enumerates. C59_stable_grothendieck, C59_involution, C59_signed_involution, C59_symplectic give the value for every cache entry left by complete runs and every fuel above an explicit bound; C59_assertions the remaining inputs."
 },
 "C60": {
  "note": "Spec/Bruhat.lean: Swap, BruhatStep, BruhatLE, BruhatCovers. C60_bruhat_covers is the main claim, C60_graded the rank function, C60_reflections the reflections. The docstrings of the transitions are violated: C60_transitions, C60_transitions_violate_docstring. C60_involution_covers_raise is a witness for the AttributeError."
 },
 "C61": {
  "note": "C61_cycle, C61_cycles, C61_cycles_signed, C61_pow, C61_star, C61_longest. Findings: `w ** 0` raises TypeError (identity takes no argument); star is not an involution if w(1) = 1."
 },
 "C62": {
  "note": "C62_semistandard_marked_rpp, C62_not_strict, C62_weight."
 },
 "C63": {
  "note": "C63_count_marked_rpp, C63_symmetric (skew shapes, both versions)."
 },
 "C64": {
  "note": "Includes a finding for dual_stable_grothendieck_s: a nu longer than mu is cut off, so the value for shapes not contained in each other need not be zero."
 },
 "C65": {
  "note": "gs_expansion: the failure on gs_(2,1) in two variables is proved (C65_gs_expansion_fails)."
 },
 "C67": {
  "note": "is_grassmannian rejects permutations with one descent and w(1) = 1, such as s_2, and grassmannians(3) contains a permutation of rank 4; both are stated as theorems."
 },
 "C68": {
  "note": "inv_grassmannians(4) contains an involution of rank 5 (stated as a theorem)."
 },
 "C69": {
  "note": "Finding: is_fpf_grassmannian rejects get_fpf_grassmannian(3, 1) and accepts permutations that are no fixed-point-free involutions (C69_is_fpf_grassmannian_fails)."
 },
 "C70": {
  "note": "Finding: inverse_orthogonal_hecke is wrong for non-positive letters (C70_needs_positive), and inverse_symplectic_hecke for words with odd letters that are no symplectic Hecke words (C70_symplectic_odd); neither function checks its input. symplectic_hecke on symplectic Hecke words with odd letters is modelled but no theorem is proved about it."
 },
 "C74": {
  "note": "Finding: involutions(n, signed=True, fpf=True) for even n yields all signed involutions, also those with fixed points (C74_signed_fpf)."
 },
 "C78": {
  "note": "Finding: for skew shapes f_crystal_operator does not keep the shape (C78_skew_fails)."
 },
 "C82": {
  "note": "Proved for setvalued=False (C82_istrings_partial). The code violates the claim for set-valued tableaux: istrings calls e_crystal_operator with its default multisetvalued=True, and the tableau {1,2} of shape (1) is missing in istrings(1) (C82_fails)."
 },
 "C85": {
  "note": "Observation: on skew shapes that are not rims the counts are still returned and mean nothing (C85_not_a_rim)."
 },
 "C90": {
  "note": "Observation: CrystalMixin.istrings cannot be used for word crystals; self[x] is a pair of tuples there and has no e_crystal_operator."
 },
 "C97": {
  "note": "As the code stands, an operator raises AttributeError on the int 0 that an operator returns for 'no terms' (C97_zero_raises); the relations are stated with 0 sent to 0."
 },
 "C100": {
  "note": "False as stated (C100_row_remove_not_linear, C100_column_remove_not_linear): the code ignores the coefficients of the vector. Proved: the result is the sum over the keys of the results for the keys, so linearity holds for vectors with coefficients 1. C100_operator_R gives a wrong coefficient of operator_R(1)((2, 1))."
 },
 "C103": {
  "note": "js_expansion is not covered by the claim: it raises an AssertionError on js_(2,1) in two variables (C103_js_expansion_fails)."
 },
 "C104": {
  "note": "For a y of smaller length little_bump can raise Exception, as for the word (1, 2, 1) and the identity (C104_raises)."
 },
 "C106": {
  "note": "The form with two further arguments is C109."
 },
 "C109": {
  "note": "C109_choice is the finding that the result depends on which atom is listed first."
 },
 "C110": {
  "note": "C110_upper_misses is the finding that j = n + 1 is left out against the docstring. The model of tau is for unsigned permutations."
 },
 "C115": {
  "note": "the list of labels `reasons` for printing is not modelled"
 },
 "C116": {
  "note": "equality with orthogonal Hecke insertion, which the tests check, is not proved"
 },
 "C117": {
  "note": "the rest of vst.py (transitions) is not modelled"
 },
 "C118": {
  "note": "singletons with arguments is not modelled"
 },
 "C120": {
  "note": "False along columns: the code uses the grouping of the box in the smaller row, but a primed box with grouping 1 is continued in the row before it (C120_violated). Proved along rows."
 },
 "C129": {
  "note": "False in general: `v is self.get(i + 1, j)` compares a tuple with an int, so the result is always 0 (C129_violated, C129_zero). Proved for tableaux without repetitions."
 },
 "C130": {
  "note": "Termination is not claimed."
 },
 "C132": {
  "note": "is_nonnegative, is_positive and // for int coefficients."
 }
}