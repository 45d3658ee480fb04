{"id": "C01", "title": "Polynomial addition is coefficientwise", "statement": "For Laurent polynomials p and q, every coefficient read with [] from p + q is the sum of the coefficients read from p and q, and so are the results with an int on either side. The result stores no zero coefficient and no duplicate monomial if the operands did not.", "quantifier": "all Laurent polynomials p, q over the integers in any number of variables, all integers", "why_tests_cant": "infinitely many polynomials, including every pattern of cancellations between terms; tests only sample a few", "anchors": ["polynomials.py: Polynomial.__add__", "polynomials.py: Polynomial.__radd__", "polynomials.py: Polynomial.__sub__", "polynomials.py: Polynomial.__neg__", "polynomials.py: Polynomial.__getitem__"]}
{"id": "C02", "title": "Polynomial multiplication is the Laurent polynomial product", "statement": "p * q is the product of p and q in the ring of Laurent polynomials with integer coefficients (so it is associative, commutative and distributes over +). No zero coefficient is stored in the result, even when terms cancel and reappear during the computation, and every monomial in it is normalised (no variable with exponent 0).", "quantifier": "all Laurent polynomials p, q over the integers", "why_tests_cant": "ring laws quantify over all triples of polynomials; a cancellation bug needs a particular order of terms", "anchors": ["polynomials.py: Polynomial.__mul__", "polynomials.py: Polynomial.__rmul__"]}
{"id": "C03", "title": "Polynomial equality is equality of coefficients", "statement": "p == q holds exactly when p and q have the same coefficient at every monomial, independently of the order in which their terms were created; p is falsy exactly when all its coefficients are 0.", "quantifier": "all pairs of Laurent polynomials", "why_tests_cant": "an equality test has to be right on all pairs, equal and unequal", "anchors": ["polynomials.py: Polynomial.__eq__", "polynomials.py: Polynomial.nnz", "polynomials.py: Polynomial.is_zero", "polynomials.py: Polynomial.__bool__"]}
{"id": "C04", "title": "Polynomial powers", "statement": "p ** n is the n-fold product of p for n >= 0 (p ** 0 is 1). For n < 0, p ** n is the inverse of p ** (-n) whenever p is plus or minus a monomial, and None otherwise.", "quantifier": "all Laurent polynomials p, all integers n", "why_tests_cant": "quantifies over all exponents and all monomials with either sign", "anchors": ["polynomials.py: Polynomial.__pow__"]}
{"id": "C05", "title": "Substituting for a variable is evaluation", "statement": "If the variable i occurs in p with non-negative exponents only, p.substitute(i, e) is the image of p under the ring homomorphism sending x_i to e and fixing the other variables; if it occurs with a negative exponent the call raises AssertionError. In particular substituting in a sum or product gives the sum or product of the substitutions.", "quantifier": "all polynomials p and e, all variables i", "why_tests_cant": "homomorphism laws quantify over all pairs of polynomials and all substituted values", "anchors": ["polynomials.py: Polynomial.substitute", "polynomials.py: Polynomial.monomial", "polynomials.py: Polynomial.one"]}
{"id": "C06", "title": "Coefficient extraction decomposes a polynomial", "statement": "p.coefficient(i, k) does not involve the variable i, and p is the sum over k of p.coefficient(i, k) * x_i**k.", "quantifier": "all Laurent polynomials p, all variables i, all integer powers k", "why_tests_cant": "needs all polynomials and all exponents at once", "anchors": ["polynomials.py: Polynomial.coefficient"]}
{"id": "C07", "title": "Truncation and total degree", "statement": "p.truncate(d) keeps exactly the terms of total degree at most d with their coefficients; p.total_degree() is the largest degree of a term, and None exactly for the polynomial without terms.", "quantifier": "all Laurent polynomials p, all integers d", "why_tests_cant": "all polynomials and all bounds, also negative degrees", "anchors": ["polynomials.py: Polynomial.truncate", "polynomials.py: Polynomial.total_degree", "polynomials.py: HashableDict.degree"]}
{"id": "C08", "title": "Integer division of polynomials", "statement": "For a nonzero integer o, p == (p // o) * o + p % o; p / o returns the q with q * o == p when o divides all coefficients and raises AssertionError otherwise.", "quantifier": "all Laurent polynomials p, all nonzero integers o (negative ones too)", "why_tests_cant": "floor division of negative numbers by numbers of either sign; all polynomials", "anchors": ["polynomials.py: Polynomial.__mod__", "polynomials.py: Polynomial.__floordiv__", "polynomials.py: Polynomial.__truediv__"]}
{"id": "C09", "title": "Polynomial comparison is a strict order", "statement": "p < q holds exactly when q - p has only positive coefficients and p and q differ; < is irreflexive and transitive, and p > q is q < p.", "quantifier": "all pairs and triples of Laurent polynomials", "why_tests_cant": "order laws quantify over all triples", "anchors": ["polynomials.py: Polynomial.__lt__", "polynomials.py: Polynomial.__gt__"]}
{"id": "C10", "title": "p ^ q is the K-theoretic formal group law", "statement": "p ^ q = p + q + beta*p*q is commutative and associative with 0 as its unit, and 1 + beta*(p ^ q) = (1 + beta*p) * (1 + beta*q).", "quantifier": "all Laurent polynomials p, q, r", "why_tests_cant": "algebraic law over all triples of polynomials", "anchors": ["polynomials.py: Polynomial.__xor__", "polynomials.py: X"]}
{"id": "C11", "title": "Vector arithmetic is coefficientwise", "statement": "For vectors u, v with coefficients in a commutative ring (int or Polynomial): (u + v)[k] = u[k] + v[k], (u - v)[k] = u[k] - v[k], (u * c)[k] = u[k] * c for every key k; u == v exactly when u[k] = v[k] for all k; no zero coefficient is stored, so len(u) counts the keys with nonzero coefficient.", "quantifier": "all vectors, all keys, all scalars", "why_tests_cant": "all vectors including every cancellation pattern", "anchors": ["vectors.py: Vector.__add__", "vectors.py: Vector.__sub__", "vectors.py: Vector.__mul__", "vectors.py: Vector.__eq__", "vectors.py: Vector.__init__", "vectors.py: Vector.__len__"]}
{"id": "C12", "title": "Vector multiplication is the bilinear extension of its multiplier", "statement": "u * v has at every key m the coefficient sum over keys a, b of u[a] v[b] c(a,b,m), where c(a,b,m) is the total coefficient the multiplier yields for m from (a, b). If the multiplier is associative, v ** n (n > 0) is the n-fold product of v.", "quantifier": "all vectors, all multipliers, all positive n", "why_tests_cant": "bilinearity and the exponentiation-by-squaring identity hold over all vectors and all exponents", "anchors": ["vectors.py: Vector.__mul__", "vectors.py: Vector.__pow__"]}
{"id": "C13", "title": "Word crystal operators are mutually inverse", "statement": "For a word w and index i: if Word.f_crystal_operator(i, w) returns a word v, then Word.e_crystal_operator(i, v) returns w, and conversely. Splitting w into consecutive subwords and passing these as several arguments gives the same result cut at the same places.", "quantifier": "all words over the integers, all indices i, all ways of cutting the word", "why_tests_cant": "unbounded word length; bracket matching has unboundedly many nesting patterns", "anchors": ["words.py: Word.f_crystal_operator", "words.py: Word.e_crystal_operator"]}
{"id": "C14", "title": "Word crystal operators change one letter and match the signature rule", "statement": "A non-None result of f_i (e_i) differs from w in exactly one position, where an i becomes i+1 (i+1 becomes i). f_i can be applied to w exactly phi times before it returns None, where phi is the maximum of #i - #(i+1) over all prefixes of w (the empty prefix included), and e_i exactly epsilon times, where epsilon is the maximum of #(i+1) - #i over all suffixes of w.", "quantifier": "all words, all indices", "why_tests_cant": "unbounded words; the stated string lengths are a statement about iterating the operator", "anchors": ["words.py: Word.f_crystal_operator", "words.py: Word.e_crystal_operator"]}
{"id": "C15", "title": "Quasisymmetrisation sums over ways to cut a word", "statement": "The coefficient of a composition (a1,...,ak) in Word.quasisymmetrize(w, zeta) is the product of zeta over the consecutive blocks of w of sizes a1,...,ak if these sum to len(w), and 0 for every other tuple.", "quantifier": "all words, all integer-valued functions zeta, all tuples", "why_tests_cant": "quantifies over all functions zeta and all words", "anchors": ["words.py: Word.quasisymmetrize"]}
{"id": "C16", "title": "Zeta characters count decompositions", "statement": "decreasing_zeta and the three other monotone characters are 1 exactly on the words with that monotonicity and 0 otherwise. unimodal_zeta(w), the number of ways to cut w into a strictly decreasing and a strictly increasing part, is 2 if w is nonempty and strictly decreases and then strictly increases, 1 if w is empty or strictly decreases to a letter, repeats it once and then strictly increases, and 0 otherwise.", "quantifier": "all words", "why_tests_cant": "unbounded word length", "anchors": ["words.py: Word.increasing_zeta", "words.py: Word.decreasing_zeta", "words.py: Word.weakly_increasing_zeta", "words.py: Word.weakly_decreasing_zeta", "words.py: Word.unimodal_zeta"]}
{"id": "C17", "title": "Transposing a partition is an involution that reflects its diagram", "statement": "For a partition mu with positive parts, Partition.transpose(mu) is a partition with positive parts whose diagram is the reflection of the diagram of mu, has the same sum, and transposing twice gives mu back.", "quantifier": "all partitions", "why_tests_cant": "infinitely many partitions", "anchors": ["partitions.py: Partition.transpose", "partitions.py: Partition.shape"]}
{"id": "C18", "title": "Partition.generate lists every partition once", "statement": "Partition.generate(n, max_part, max_row, strict, even_parts) yields every partition of n into positive parts with all parts at most max_part, at most max_row parts, distinct parts if strict, even parts if even_parts, each exactly once and nothing else, no matter which calls were made before.", "quantifier": "all n >= 0, all bounds (given or None), both flags, all call histories of the module-level cache", "why_tests_cant": "completeness for all n; correctness after every history of calls that touched the shared cache", "anchors": ["partitions.py: Partition.generate", "partitions.py: Partition.all", "partitions.py: PARTITIONS"]}
{"id": "C19", "title": "Partition.subpartitions lists every subpartition once", "statement": "For a partition mu and a partition nu, Partition.subpartitions(mu, nu, strict) yields exactly the partitions lam (trimmed) with nu contained in lam contained in mu, each once; with strict=True exactly those with distinct parts.", "quantifier": "all partitions mu, nu; both values of strict", "why_tests_cant": "completeness and absence of duplicates for all mu, nu", "anchors": ["partitions.py: Partition.subpartitions", "partitions.py: Partition.trim"]}
{"id": "C20", "title": "Compositions and peak compositions are complete", "statement": "Partition.compositions(n) lists every finite sequence of positive integers with sum n exactly once; peak_compositions(n) lists exactly those all of whose parts except possibly the last are at least 2, once each.", "quantifier": "all n >= 0", "why_tests_cant": "the list has 2^(n-1) entries for every n", "anchors": ["partitions.py: Partition.compositions", "partitions.py: Partition.peak_compositions"]}
{"id": "C21", "title": "Removing an inner corner removes one corner box", "statement": "For a partition mu with positive parts, Partition.remove_inner_corner(mu, row) succeeds exactly when the last box of that row is a corner, and then returns the partition whose diagram is that of mu without this box; otherwise it raises. remove_inner_corners(mu) yields, once each, the partitions obtained by removing any set of corner boxes of mu. The shifted versions do the same for strict partitions, returning None instead of raising.", "quantifier": "all partitions (strict ones for the shifted versions), all rows", "why_tests_cant": "case analysis on first, middle and last row has to cover all partitions", "anchors": ["partitions.py: Partition.remove_inner_corner", "partitions.py: Partition.remove_inner_corners", "partitions.py: Partition.remove_shifted_inner_corner", "partitions.py: Partition.remove_shifted_inner_corners"]}
{"id": "C22", "title": "Growth diagrams follow Fomin's local rules", "statement": "In the array g returned by Partition.growth_diagram for a matrix of non-negative integers, every g[i][j] is a partition with positive parts whose size is the sum of the matrix entries in rows 1..i and columns 1..j; g[i][j-1] and g[i-1][j] are contained in g[i][j] and differ from it by horizontal strips; transposing the matrix transposes the array.", "quantifier": "all finite matrices of non-negative integers, all i and j", "why_tests_cant": "invariant of a doubly nested loop over matrices of any size", "anchors": ["partitions.py: Partition.growth_diagram"]}
{"id": "C23", "title": "Containment and shapes agree", "statement": "For partitions with positive parts, Partition.contains(mu, nu) holds exactly when the diagram of nu is a subset of that of mu; Partition.from_shape(Partition.shape(mu)) == mu whatever the iteration order of the set; Partition.skew(mu, nu) is the set difference of the diagrams; the same for shifted diagrams of strict partitions.", "quantifier": "all partitions, all iteration orders of the set of boxes", "why_tests_cant": "sets iterate in arbitrary order; all partitions", "anchors": ["partitions.py: Partition.contains", "partitions.py: Partition.shape", "partitions.py: Partition.shifted_shape", "partitions.py: Partition.from_shape", "partitions.py: Partition.skew"]}
{"id": "C24", "title": "Tableau.semistandard generates exactly the semistandard tableaux", "statement": "For partitions mu, nu with positive parts and n >= 0, Tableau.semistandard(n, mu, nu) is the set of all fillings of the skew diagram mu/nu by integers 1..n whose rows weakly increase and whose columns strictly increase (the empty set if nu is not contained in mu).", "quantifier": "all n, all partitions mu and nu", "why_tests_cant": "soundness and completeness for all shapes and all n", "anchors": ["tableaux.py: Tableau.semistandard", "tableaux.py: Tableau._semistandard", "tableaux.py: Tableau._horizontal_strips"]}
{"id": "C25", "title": "Tableau.semistandard_setvalued generates exactly the set-valued tableaux", "statement": "Tableau.semistandard_setvalued(n, mu, nu) is the set of all fillings of mu/nu by nonempty subsets of {1..n} such that every choice of one element from each box is semistandard.", "quantifier": "all n, all partitions mu and nu", "why_tests_cant": "soundness and completeness for all shapes and all n", "anchors": ["tableaux.py: Tableau.semistandard_setvalued", "tableaux.py: Tableau._semistandard", "tableaux.py: Tableau._subsets", "tableaux.py: Tableau._horizontal_strips"]}
{"id": "C26", "title": "Fast counts agree with the tableaux they count", "statement": "Tableau.count_semistandard(n, mu, nu)[alpha] (and count_semistandard_setvalued) is, for every partition alpha with at most n positive parts, the number of tableaux of Tableau.semistandard(n, mu, nu) (resp. semistandard_setvalued) with alpha_i entries equal to i; no other key has a nonzero value.", "quantifier": "all n, mu, nu, alpha", "why_tests_cant": "the count is computed by a different recursion with pruning; agreement is needed on all shapes and weights", "anchors": ["tableaux.py: Tableau._count_semistandard", "tableaux.py: Tableau.count_semistandard_setvalued", "tableaux.py: nchoosek"]}
{"id": "C27", "title": "nchoosek computes binomial coefficients", "statement": "nchoosek(m, k) is the binomial coefficient for all integers m and k >= 0: every floor division in its loop is exact.", "quantifier": "all integers m, all k >= 0", "why_tests_cant": "exactness of a chain of floor divisions for all arguments", "anchors": ["tableaux.py: nchoosek"]}
{"id": "C28", "title": "Multiplying monomial symmetric polynomials is multiplication of polynomials", "statement": "For SymmetricMonomials f, g in the same n variables, (f * g).polynomial() == f.polynomial() * g.polynomial(); hence polynomial() is a ring homomorphism from SymmetricPolynomials in n variables to Laurent polynomials, and it is injective on those whose coefficients do not involve x_1, ..., x_n.", "quantifier": "all n, all partitions with at most n parts, all coefficients", "why_tests_cant": "the product is computed in min(n, len mu + len nu) variables and only at partition exponents; correctness is needed for all n, mu, nu", "anchors": ["symmetric.py: SymmetricMonomial._multiply", "symmetric.py: SymmetricMonomial._destandardize", "symmetric.py: SymmetricMonomial.polynomial", "symmetric.py: SymmetricPolynomial.polynomial", "symmetric.py: SymmetricPolynomial.__init__"]}
{"id": "C29", "title": "schur is the generating function of semistandard tableaux", "statement": "SymmetricPolynomial.schur(n, mu, nu).polynomial() is the sum of x^weight(T) over all semistandard tableaux T of shape mu/nu with entries in 1..n; in particular that sum is a symmetric polynomial, which the code relies on by only counting partition weights.", "quantifier": "all n, all partitions mu, nu", "why_tests_cant": "symmetry of the generating function is a theorem about all shapes", "anchors": ["symmetric.py: SymmetricPolynomial.schur", "symmetric.py: SymmetricPolynomial._vectorize", "tableaux.py: Tableau.count_semistandard"]}
{"id": "C30", "title": "stable_grothendieck is the generating function of set-valued tableaux", "statement": "SymmetricPolynomial.stable_grothendieck(n, mu, nu).polynomial() is the sum of beta^(|T| - |mu/nu|) x^weight(T) over all semistandard set-valued tableaux T of shape mu/nu with entries in 1..n.", "quantifier": "all n, all partitions mu, nu", "why_tests_cant": "symmetry of the set-valued generating function is a theorem about all shapes", "anchors": ["symmetric.py: SymmetricPolynomial.stable_grothendieck", "symmetric.py: SymmetricPolynomial._vectorize", "tableaux.py: Tableau.count_semistandard_setvalued"]}
{"id": "C31", "title": "degree_bound truncates", "statement": "SymmetricPolynomial.stable_grothendieck(n, mu, nu, degree_bound=d) is the truncation to x-degree at most d of the polynomial returned without a bound, and truncating twice is truncating at the smaller bound.", "quantifier": "all n, mu, nu, d", "why_tests_cant": "all shapes and bounds", "anchors": ["symmetric.py: SymmetricPolynomial._vectorize", "symmetric.py: SymmetricPolynomial.truncate", "symmetric.py: SymmetricPolynomial.stable_grothendieck"]}
{"id": "C32", "title": "Signed permutations form a group under *", "statement": "Permutation(...) normalises its one-line notation so that two permutations are == exactly when they agree as functions on the integers; (u * v)(i) = u(v(i)) for every integer i; * is associative with identity() as unit and w * w.inverse() == identity().", "quantifier": "all signed permutations of any rank, all integers i", "why_tests_cant": "group laws over all triples of any ranks", "anchors": ["permutations.py: Permutation.__init__", "permutations.py: Permutation.__call__", "permutations.py: Permutation.__mul__", "permutations.py: Permutation.inverse", "permutations.py: Permutation.__eq__"]}
{"id": "C33", "title": "Length and descents", "statement": "For a signed permutation w and i >= 0: len(w * s_i) = len(w) - 1 if i is in w.right_descent_set and len(w) + 1 otherwise; the same on the left with left_descent_set; len(w) = 0 exactly for the identity; len(w.inverse()) = len(w). The parity assertion in __len__ never fails.", "quantifier": "all signed permutations, all i >= 0", "why_tests_cant": "inversion counting identity over all signed permutations", "anchors": ["permutations.py: Permutation.__len__", "permutations.py: Permutation.right_descent_set", "permutations.py: Permutation.left_descent_set", "permutations.py: Permutation.s_i"]}
{"id": "C34", "title": "get_reduced_word is a reduced word", "statement": "w.get_reduced_word() terminates and returns a word with Permutation.from_word(word) == w whose length is len(w), the least possible length of such a word.", "quantifier": "all signed permutations w", "why_tests_cant": "termination and minimality for all w", "anchors": ["permutations.py: Permutation.get_reduced_word", "permutations.py: Permutation.from_word"]}
{"id": "C35", "title": "get_reduced_words yields exactly the reduced words", "statement": "After any history of complete or abandoned iterations, list(w.get_reduced_words()) consists of exactly the words of length len(w) with product w, each once.", "quantifier": "all signed permutations w, all histories of earlier calls (including generators that were not exhausted)", "why_tests_cant": "depends on the contents of a shared cache, i.e. on every earlier history of calls", "anchors": ["permutations.py: Permutation.get_reduced_words", "permutations.py: SIGNED_REDUCED_WORDS"]}
{"id": "C36", "title": "The Demazure product does not depend on choices", "statement": "u % v is the Demazure (0-Hecke) product: it is associative, has the identity as unit, s_i % s_i = s_i, u % v = u * v when lengths add, and the result does not depend on which left descent of v the set iteration returns first.", "quantifier": "all signed permutations u, v, w; all set iteration orders", "why_tests_cant": "the code picks an arbitrary element of a set; all choices must agree", "anchors": ["permutations.py: Permutation.__mod__"]}
{"id": "C37", "title": "hecke_levels is independent of earlier calls", "statement": "The k-th level yielded by Permutation.hecke_levels(n, length_bound, ascent_bound) is the set of all pairs (Demazure product of w, w) for words w of length k in letters 1..n-1 with fewer than ascent_bound weak ascents; the same levels are yielded whatever calls were made and completed or abandoned before.", "quantifier": "all n, bounds, k; all histories of generator steps", "why_tests_cant": "the levels are cached in module-level state while generators are suspended; correctness depends on all interleavings", "anchors": ["permutations.py: Permutation.hecke_levels", "permutations.py: HECKE_CACHE"]}
{"id": "C38", "title": "cached_value is transparent", "statement": "If the wrapped function is deterministic, every call of the cached function returns what the function returns on these arguments, or raises what it raises, whatever calls preceded it; each argument tuple that returned is evaluated at most once.", "quantifier": "all functions, all finite call histories (including raising and recursive calls)", "why_tests_cant": "quantifies over call histories", "anchors": ["cached.py: cached_value"]}
{"id": "C39", "title": "Hecke insertion is invertible", "statement": "For every word w in positive integers, InsertionAlgorithm.inverse_hecke applied to the pair of tableaux returned by InsertionAlgorithm.hecke(w) returns w again (together with the record 1..len(w)).", "quantifier": "all words in positive integers", "why_tests_cant": "all words of any length; the insertion algorithm has several cases that interact", "anchors": ["insertion.py: InsertionAlgorithm.hecke", "insertion.py: InsertionAlgorithm.inverse_hecke", "insertion.py: HState._row_transition", "insertion.py: HState._inverse_row_transition", "insertion.py: HState._inverse_terminal_transition"]}
{"id": "C40", "title": "Hecke insertion produces an increasing tableau", "statement": "For every word w in positive integers, the first tableau returned by InsertionAlgorithm.hecke(w) has a partition shape and strictly increasing rows and columns, and the second one has the same shape and contains each of 1..len(w) exactly once.", "quantifier": "all words in positive integers", "why_tests_cant": "invariant of an unbounded sequence of insertions; none of the assertions in the code may fail", "anchors": ["insertion.py: HState.insertion_tableaux", "insertion.py: HState.push", "insertion.py: HState._row_transition"]}
{"id": "C41", "title": "Box operators multiply by concatenation modulo adjacent repeats", "statement": "The product of two box operators is the bilinear extension of concatenation in which a word containing two adjacent letters of equal absolute value is 0, and the powers of beta add; hence * is associative.", "quantifier": "all box operators", "why_tests_cant": "associativity over all triples", "anchors": ["boxes.py: box_operator_multipler", "boxes.py: box_operator_relations", "boxes.py: BoxOperator.__mul__"]}
{"id": "C42", "title": "Hecke insertion with a record is invertible", "statement": "For every word w in positive integers and every record r of positive integers, InsertionAlgorithm.hecke(w, r, multisetvalued) raises iff r is not admissible (same length, weakly increasing, strictly increasing at the descents of w if multisetvalued and at the weak ascents of w otherwise), and otherwise inverse_hecke applied to the result returns (w, r); the result does not depend on what earlier calls left in HSTATE_CACHE.", "quantifier": "all words in positive integers, all records of positive integers, both values of multisetvalued, all cache contents reachable by earlier calls", "why_tests_cant": "infinitely many words and records; correctness depends on the Pieri property of Hecke insertion relating consecutive insertion paths", "anchors": ["insertion.py: InsertionAlgorithm.hecke", "insertion.py: InsertionAlgorithm.inverse_hecke", "insertion.py: InsertionAlgorithm._check_record", "insertion.py: InsertionAlgorithm._standardize_recording_tableau", "tableaux.py: Tableau.standardize"]}
{"id": "C43", "title": "rref and is_expressable decide rational linear dependence", "statement": "On a rectangular integer matrix Vector.rref raises nothing, keeps the dimensions and the rational row space, and returns a row echelon form with positive leading entries. v.is_expressable(*args) raises nothing and returns True exactly when v is a linear combination of args with rational coefficients.", "quantifier": "all rectangular integer matrices, all integer vectors and lists of vectors", "why_tests_cant": "tests try a few small matrices; gcd signs, exactness of every division and the order of swaps matter for all matrices", "anchors": ["vectors.py: Vector.rref", "vectors.py: Vector.is_expressable"]}
{"id": "C44", "title": "schur_expansion, grothendieck_expansion and mn_grothendieck_expansion return the unique coefficients", "statement": "For every symmetric polynomial f in n variables whose coefficients are Laurent polynomials in beta, schur_expansion(f), grothendieck_expansion(f) and mn_grothendieck_expansion(f) terminate, no assertion fails and no exception is raised, and the returned vector is the unique one, over partitions with at most n parts and coefficients in Z[beta, 1/beta], for which f.polynomial() is the combination of the generating functions of semistandard tableaux (resp. set-valued tableaux with weight beta, resp. -beta, for each extra entry).", "quantifier": "all n, all symmetric polynomials with coefficients in Z[beta, 1/beta]", "why_tests_cant": "termination of the recursion and success of its assertions depend on unitriangularity of infinite families; tests expand a few small polynomials", "anchors": ["symmetric.py: SymmetricPolynomial._expansion", "symmetric.py: schur_expansion", "symmetric.py: grothendieck_expansion", "symmetric.py: mn_grothendieck_expansion", "symmetric.py: mn_stable_grothendieck", "symmetric.py: negate_beta", "symmetric.py: lowest_degree_terms"]}
{"id": "C45", "title": "Recognisers and normal forms of partitions", "statement": "is_partition accepts exactly the weakly decreasing tuples of non-negative ints (trailing zeros allowed) and is_strict_partition exactly the strictly decreasing tuples. sort is the weakly decreasing rearrangement, and with trim=True the partition with the same nonzero entries. trim removes the trailing zeros and nothing else. The diagram of union(p, q) is the union of the diagrams. complement(n, mu), for a strict partition mu with parts at most n, is the strict partition with parts {1..n} minus mu, and its assertion fails if a part exceeds n.", "quantifier": "all int tuples, all partitions, all strict partitions and n", "why_tests_cant": "tests check a few tuples; boundary cases (empty, zeros, negative entries) and all n are not covered", "anchors": ["partitions.py: is_partition", "partitions.py: is_strict_partition", "partitions.py: sort", "partitions.py: trim", "partitions.py: union", "partitions.py: complement"]}
{"id": "C46", "title": "Local moves and decompositions of shifted shapes", "statement": "find_shifted_outer_corner and find_shifted_inner_corner return the row of the addable (resp. removable) box on a diagonal, or None if there is none. successors(mu) lists once each partition with the same number of parts whose parts exceed those of mu by 0 or 1 (the strict ones if strict=True). decompose_shifted_shape_by_vertical_strips and ..._by_rims list once each strict partition nu with nu_i <= mu_i <= nu_i + 1, resp. mu_{i+1} <= nu_i <= mu_i. decrement_one removes the highest corner of the shifted diagram, decrement_strict its last column. shifted_ribbon(alpha) is the ribbon with row lengths alpha.", "quantifier": "all strict partitions, all diagonals, all compositions", "why_tests_cant": "the recursions and loops depend on the shape; tests run a few shapes", "anchors": ["partitions.py: find_shifted_outer_corner", "partitions.py: find_shifted_inner_corner", "partitions.py: successors", "partitions.py: decompose_shifted_shape_by_vertical_strips", "partitions.py: decompose_shifted_shape_by_rims", "partitions.py: decrement_one", "partitions.py: decrement_strict", "partitions.py: shifted_ribbon"]}
{"id": "C47", "title": "semistandard_rpp generates exactly the reverse plane partitions", "statement": "For all partitions mu, nu and all n, Tableau.semistandard_rpp(n, mu, nu) is exactly the set of fillings of mu/nu by entries in 1..n that weakly increase along rows and columns (empty when nu is not contained in mu), and ReversePlanePartition.weight(n) of such a filling is, for each letter, the number of columns that contain it.", "quantifier": "all partitions mu, nu, all n", "why_tests_cant": "tests enumerate a few small shapes; correctness depends on the row-level generator of strips for every shape", "anchors": ["tableaux.py: Tableau._semistandard_rpp", "tableaux.py: Tableau._rpp_vertical_strips", "tableaux.py: Tableau._rpp_horizontal_strips", "tableaux.py: ReversePlanePartition.weight"]}
{"id": "C48", "title": "count_semistandard_rpp counts by weight and the counts are symmetric", "statement": "For all partitions mu, nu and all n, count_semistandard_rpp(n, mu, nu) maps each partition alpha with at most n parts to the number of reverse plane partitions of shape mu/nu with entries in 1..n and weight alpha (padded with zeros), and no other key has a nonzero value. The number of reverse plane partitions of a given weight does not change when the weight is permuted.", "quantifier": "all partitions mu, nu, all n, all weights", "why_tests_cant": "the pruning to partition weights in the recursion is only right because of a symmetry that holds for infinitely many shapes", "anchors": ["tableaux.py: Tableau._count_semistandard_rpp", "tableaux.py: Tableau.count_semistandard_rpp"]}
{"id": "C49", "title": "dual_stable_grothendieck is the generating function of reverse plane partitions", "statement": "For all partitions mu, nu and all n, dual_stable_grothendieck(n, mu, nu) raises no exception and its polynomial is the sum over reverse plane partitions of shape mu/nu with entries in 1..n of the monomial of the column weight times (-beta)^(number of boxes - size of the weight); mp_dual_stable_grothendieck is the same with beta in place of -beta. Both are zero when nu is not contained in mu.", "quantifier": "all partitions mu, nu, all n", "why_tests_cant": "the code divides by powers of beta (sign -1/beta) and multiplies back; that no negative power is left for any shape is a statement about all shapes", "anchors": ["symmetric.py: SymmetricPolynomial._dual_stable_grothendieck", "symmetric.py: SymmetricPolynomial.mp_dual_stable_grothendieck", "symmetric.py: SymmetricPolynomial._vectorize"]}
{"id": "C50", "title": "dual_grothendieck_expansion and mp_dual_grothendieck_expansion return the unique coefficients", "statement": "For every symmetric polynomial f in n variables whose coefficients are Laurent polynomials in beta, dual_grothendieck_expansion(f) and mp_dual_grothendieck_expansion(f) terminate, no assertion fails, and the returned vector is the unique one, over partitions with at most n parts and coefficients in Z[beta, 1/beta], for which f.polynomial() is the combination of the generating functions of reverse plane partitions.", "quantifier": "all n, all symmetric polynomials with coefficients in Z[beta, 1/beta]", "why_tests_cant": "termination of the recursion from the highest degree and success of its assertions depend on unitriangularity of infinite families", "anchors": ["symmetric.py: SymmetricPolynomial._expansion", "symmetric.py: SymmetricPolynomial._get_term_from_highest_degree", "symmetric.py: SymmetricPolynomial.highest_degree_terms", "symmetric.py: SymmetricPolynomial.dual_grothendieck_expansion", "symmetric.py: SymmetricPolynomial.mp_dual_grothendieck_expansion"]}
{"id": "C51", "title": "semistandard_marked and semistandard_shifted_marked generate exactly the marked tableaux", "statement": "For all partitions mu, nu and all n, semistandard_marked(n, mu, nu) and semistandard_marked_setvalued(n, mu, nu) are the sets of all marked (set-valued) tableaux of shape mu/nu with letters 1' < 1 < ... < n' < n: rows and columns weakly increase, no primed letter repeats in a row, no unprimed letter repeats in a column, for every choice of one entry per box. For strict partitions the shifted functions raise no exception and return exactly the shifted marked tableaux, without primes on the diagonal when diagonal_primes is False. A shape that is not strict raises AssertionError.", "quantifier": "all partitions (strict partitions) mu, nu, all n, both values of diagonal_primes and setvalued", "why_tests_cant": "completeness and absence of extra tableaux for all skew shapes cannot be enumerated; the strips are generated level by level by nontrivial loops", "anchors": ["tableaux.py: Tableau._semistandard_marked", "tableaux.py: Tableau._semistandard_shifted_marked", "tableaux.py: Tableau._vertical_strips", "tableaux.py: Tableau._shifted_horizontal_strips", "tableaux.py: Tableau._shifted_vertical_strips"]}
{"id": "C52", "title": "counts of marked tableaux by weight and their symmetry", "statement": "For all (strict) partitions mu, nu and all n, count_semistandard_marked, count_semistandard_marked_setvalued, count_semistandard_shifted_marked and count_semistandard_shifted_marked_setvalued map each partition alpha with at most n parts to the number of tableaux of that weight, and have no other key with a nonzero value; the number of tableaux of a given weight does not change when the weight is permuted. weight(n) counts the letters i and i'.", "quantifier": "all (strict) partitions mu, nu, all n, all weights, both values of diagonal_primes and setvalued", "why_tests_cant": "the recursion prunes to partition weights, which is only right by a symmetry valid for infinitely many shapes", "anchors": ["tableaux.py: Tableau._count_semistandard_marked", "tableaux.py: Tableau._count_semistandard_shifted_marked", "tableaux.py: Tableau.weight"]}
{"id": "C53", "title": "schur_s/q/p and stable_grothendieck_s/q/p are generating functions of marked tableaux", "statement": "For all (strict) partitions mu, nu and all n, schur_s, schur_q, schur_p, stable_grothendieck_s, stable_grothendieck_q, stable_grothendieck_p, mn_stable_grothendieck_p and mn_stable_grothendieck_q raise no exception, return a symmetric polynomial without zero coefficients, and its polynomial is the sum over the corresponding marked tableaux of the monomial of the weight times beta (or -beta, or 1) to the number of entries beyond the first in each box; with a degree bound d, over the tableaux with at most d entries.", "quantifier": "all (strict) partitions mu, nu, all n, all degree bounds", "why_tests_cant": "the polynomial is assembled from counts of partition weights only; that it equals the full sum for all shapes needs the symmetry", "anchors": ["symmetric.py: SymmetricPolynomial.schur_s", "symmetric.py: SymmetricPolynomial.schur_q", "symmetric.py: SymmetricPolynomial.schur_p", "symmetric.py: SymmetricPolynomial.stable_grothendieck_s", "symmetric.py: SymmetricPolynomial.stable_grothendieck_q", "symmetric.py: SymmetricPolynomial.stable_grothendieck_p", "symmetric.py: SymmetricPolynomial.mn_stable_grothendieck_p", "symmetric.py: SymmetricPolynomial.mn_stable_grothendieck_q"]}
{"id": "C54", "title": "P/Q/GP/GQ expansions are correct and exist exactly for combinations of the family", "statement": "For every n and every symmetric polynomial f in n variables with coefficients in Z[beta, 1/beta], P_expansion, Q_expansion, GP_expansion, GQ_expansion, mn_GP_expansion and mn_GQ_expansion return, if f is a finite combination of the corresponding polynomials indexed by strict partitions with at most n parts, the coefficients of that combination (which are unique); and any result that is returned is such a combination equal to f. On polynomials outside the span an exception is raised, for example P_expansion of m_(1,1) and Q_expansion of P_(1). S_expansion is not correct in this sense: it raises AssertionError on S_(2,1).", "quantifier": "all n, all symmetric polynomials over Z[beta, 1/beta]", "why_tests_cant": "the loop has no a priori bound and must terminate on all elements of an infinite-rank span; uniqueness needs linear independence for all n", "anchors": ["symmetric.py: SymmetricPolynomial._expansion", "symmetric.py: SymmetricPolynomial.P_expansion", "symmetric.py: SymmetricPolynomial.Q_expansion", "symmetric.py: SymmetricPolynomial.GP_expansion", "symmetric.py: SymmetricPolynomial.GQ_expansion", "symmetric.py: SymmetricPolynomial.mn_GP_expansion", "symmetric.py: SymmetricPolynomial.mn_GQ_expansion", "symmetric.py: SymmetricPolynomial.S_expansion"]}
{"id": "C55", "title": "the slow generating functions agree with the fast ones", "statement": "For all (strict) partitions mu, nu and all n, and for every order in which the set of tableaux may be traversed, _slow_schur, _slow_schur_s, _slow_schur_q, _slow_schur_p, _slow_stable_grothendieck and its variants _s, _q, _p, and _slow_dual_stable_grothendieck raise no exception (in particular the symmetry assertion in _slow_vectorize holds) and the results are equal to those of the fast functions without degree bound. The assertion fails exactly when some weight occurs more or less often than its decreasing rearrangement.", "quantifier": "all (strict) partitions mu, nu, all n, all orders of traversal", "why_tests_cant": "two different algorithms (enumeration of tableaux and recursive counting of partition weights) agree on infinitely many shapes", "anchors": ["symmetric.py: SymmetricPolynomial._slow_vectorize", "symmetric.py: SymmetricPolynomial._slow_schur", "symmetric.py: SymmetricPolynomial._slow_stable_grothendieck", "symmetric.py: SymmetricPolynomial._slow_stable_grothendieck_p", "symmetric.py: SymmetricPolynomial._slow_stable_grothendieck_q", "symmetric.py: SymmetricPolynomial._slow_dual_stable_grothendieck"]}
{"id": "C56", "title": "standard and standard shifted marked tableaux are enumerated exactly", "statement": "For all partitions mu, nu the set Tableau.standard(mu, nu) consists of all fillings of mu/nu with one entry per box that use each of 1..|mu|-|nu| exactly once and increase along rows and down columns; for all strict mu, nu Tableau.standard_shifted_marked(mu, nu, diagonal_primes) raises no exception and consists of all fillings of the shifted skew shape whose absolute values form a standard filling, with no primed entry on the diagonal unless diagonal_primes. Both are empty when nu is not contained in mu; a mu that is not strict raises AssertionError.", "quantifier": "all (strict) partitions mu, nu, both values of diagonal_primes", "why_tests_cant": "soundness and completeness of a recursive enumeration for infinitely many shapes", "anchors": ["tableaux.py: Tableau.standard", "tableaux.py: Tableau._standard", "tableaux.py: Tableau.standard_shifted_marked", "tableaux.py: Tableau._standard_shifted_marked"]}
{"id": "C57", "title": "involution words: from_involution_word, get_involution_word and involution_length agree", "statement": "For every word a of letters >= 0, from_involution_word(a) is w exactly if a is a shortest word whose Demazure conjugate s_k o ... o s_1 o s_1 o ... o s_k is w, and None if a is not shortest; every Demazure conjugate is an involution. For every involution w the number (negations + pairs + length) is even and half of it, involution_length(w), is the length of the shortest words; get_involution_word(w) raises no exception and returns such a word, with recursion depth at most involution_length(w)+1. With strict=False the result is an involution of at most that length and extends the strict result. For a w that is not an involution get_involution_word raises AssertionError.", "quantifier": "all words and all signed permutations", "why_tests_cant": "minimality over infinitely many words and all ranks, in type A and B at once", "anchors": ["permutations.py: Permutation.from_involution_word", "permutations.py: Permutation.get_involution_word", "permutations.py: Permutation.involution_length", "permutations.py: Permutation.is_involution", "permutations.py: Permutation.pairs", "permutations.py: Permutation.negations"]}
{"id": "C58", "title": "words and atoms of involutions without fixed points are enumerated exactly", "statement": "For every word a of letters >= 1, from_fpf_involution_word(a) is w exactly if a is a shortest word of a permutation g with g^-1 (2,1,4,3,...,n,n-1) g = w, where n is the least even number larger than all letters; otherwise None. For every unsigned involution w without fixed points: 2*fpf_involution_length(w) + rank/2 = length(w); get_fpf_involution_word(w) returns a word for w (up to cycles (m+1,m+2) at the end); get_fpf_involution_words(w) is exactly the set of those words; get_fpf_atoms(w) is exactly the set of x of length fpf_involution_length(w) with x^-1 (2,1,4,3,...) x = w, and no shorter x has this property. Other permutations raise AssertionError in get_fpf_atoms; the other two functions accept signed permutations and then may recurse forever or raise IndexError.", "quantifier": "all words with letters >= 1, all unsigned involutions without fixed points, every sufficient recursion depth", "why_tests_cant": "completeness of recursive enumerations for all ranks, minimality over all words, and stability under adding trailing cycles", "anchors": ["permutations.py: Permutation.from_fpf_involution_word", "permutations.py: Permutation.get_fpf_involution_word", "permutations.py: Permutation.get_fpf_involution_words", "permutations.py: Permutation.get_fpf_atoms", "permutations.py: Permutation.fpf_involution_length", "permutations.py: Permutation.is_fpf_involution", "permutations.py: Permutation.is_unsigned"]}
{"id": "C59", "title": "Stable Grothendieck polynomials of permutations and involutions enumerate factorizations of Hecke words", "statement": "`Permutation.stable_grothendieck(n, degree_bound)` raises no error for a permutation without signs; its internal symmetry assertion never fails, its generator of words ends, and the result is the symmetric polynomial in n variables that is the sum, over all sequences of n strictly decreasing words (possibly empty) whose concatenation is a Hecke word of the permutation (of total length at most degree_bound, if that is given and not negative), of beta^(total length - length) x_1^(length of the first) ... x_n^(length of the last). The same holds for `involution_stable_grothendieck` with involution Hecke words, for `symplectic_stable_grothendieck` with symplectic Hecke words, and for `signed_involution_stable_grothendieck` with involution Hecke words cut into unimodal words with a marked split. This does not depend on what earlier complete runs left in the cache of levels. For other arguments an assertion fails.", "quantifier": "all signed permutations, all n, all degree bounds, all states of the cache left by complete runs, any comparison used by max", "why_tests_cant": "The number of Hecke words is infinite and the number of sequences grows without bound with n and the rank; that the coefficients do not depend on the order of the exponents is a Yang-Baxter argument about all ranks, and the truncation by ascents or peaks is only right because every factorization passes it.", "anchors": ["permutations.py: Permutation.stable_grothendieck", "permutations.py: Permutation.signed_involution_stable_grothendieck", "permutations.py: Permutation.symplectic_stable_grothendieck", "permutations.py: Permutation.involution_stable_grothendieck", "permutations.py: Permutation._symmetrize", "permutations.py: Permutation.hecke_levels", "permutations.py: Permutation.symplectic_hecke_levels", "permutations.py: Permutation.involution_hecke_levels", "words.py: Word.peaks"]}
{"id": "C60", "title": "bruhat_covers yields exactly the elements covered in the Bruhat order; the transitions yield nothing", "statement": "For every signed permutation w, `w.bruhat_covers()` ends and yields, each once, exactly the permutations covered by w in the Bruhat order (defined by exchanging two values that stand in increasing order, without words or lengths); the length is a rank function of that order. `reflection_t(i, j)`, `transposition(i, j)` and `reflection_s(i, j)` are the reflections their names say. `upper_transitions(r)` and `lower_transitions(r)` never yield anything, contrary to their docstrings, and `involution_bruhat_covers` and `fpf_involution_bruhat_covers` can raise AttributeError; concrete witnesses are given.", "quantifier": "all signed permutations of every rank, all i, j, r >= 1", "why_tests_cant": "The claim compares the deletions of one particular reduced word with an order relation generated by reflections; that nothing is missed is the strong exchange property and that nothing else lies between is the chain property, both for all ranks.", "anchors": ["permutations.py: Permutation.bruhat_covers", "permutations.py: Permutation.involution_bruhat_covers", "permutations.py: Permutation.fpf_involution_bruhat_covers", "permutations.py: Permutation.reflection_t", "permutations.py: Permutation.reflection_s", "permutations.py: Permutation.transposition", "permutations.py: Permutation.upper_transitions", "permutations.py: Permutation.lower_transitions"]}
{"id": "C61", "title": "Cycles, powers, star and longest elements of permutations", "statement": "`cycle(*args)` for distinct positive arguments sends each argument to the next, the last to the first and fixes the rest. `cycles` of a permutation without signs ends and is its decomposition into cycles: every number from 1 to the rank once, each cycle starting with its smallest entry, sorted, and the permutation is the product of the `cycle(*c)`; with signs it raises ValueError. `w ** n` is the n-fold iterate for n >= 1 and its inverse for n <= -1, while `w ** 0` raises TypeError. `star` is conjugation by the reversal of 1..rank for permutations without signs (an involution exactly if w(1) != 1 or w is the identity) and fails an assertion otherwise. `longest_element` is the reversal or the negation of 1..n.", "quantifier": "all signed permutations of every rank, all argument lists of distinct positive numbers, all integer exponents, all n", "why_tests_cant": "The loops of `cycles` run for as long as the permutation dictates, and the recursion of `__pow__` splits the exponent; tests reach finitely many ranks and exponents only.", "anchors": ["permutations.py: Permutation.cycle", "permutations.py: Permutation.cycles", "permutations.py: Permutation.__pow__", "permutations.py: Permutation.star", "permutations.py: Permutation.longest_element", "permutations.py: Permutation.longest_unsigned"]}
{"id": "C62", "title": "semistandard_marked_rpp generates exactly the marked reverse plane partitions", "statement": "For all strict partitions mu, nu and all n, Tableau.semistandard_marked_rpp(n, mu, nu, diagonal_nonprimes) (and semistandard_shifted_rpp, which calls it) raises no exception and is exactly the set of fillings of the shifted shape mu/nu by the letters 1' < 1 < 2' < 2 < ... < n' < n that weakly increase along rows and columns, with only primed letters on the diagonal if diagonal_nonprimes is false; it is empty when nu is not contained in mu. MarkedReversePlanePartition.weight(n) of such a filling is, for each letter a, the number of columns that contain a plus the number of rows that contain a'. A shape that is not strict fails an assertion.", "quantifier": "all strict partitions mu, nu, all n, both values of diagonal_nonprimes", "why_tests_cant": "tests enumerate a few small shapes; correctness depends on two generators of strips, one by rows and one by columns, for every shape", "anchors": ["tableaux.py: Tableau._semistandard_marked_rpp", "tableaux.py: Tableau.semistandard_marked_rpp", "tableaux.py: Tableau.semistandard_shifted_rpp", "tableaux.py: Tableau._shifted_rpp_horizontal_strips", "tableaux.py: Tableau._shifted_rpp_vertical_strips", "tableaux.py: MarkedReversePlanePartition.weight"]}
{"id": "C63", "title": "count_semistandard_marked_rpp counts by weight and the counts are symmetric", "statement": "For all strict partitions mu, nu and all n, count_semistandard_marked_rpp(n, mu, nu, diagonal_nonprimes) raises no exception and maps each partition alpha with at most n parts to the number of marked reverse plane partitions of shape mu/nu with letters up to n and weight alpha (padded with zeros), and no other key has a nonzero value. The number of marked reverse plane partitions of a given weight does not change when the weight is permuted.", "quantifier": "all strict partitions mu, nu, all n, all weights, both values of diagonal_nonprimes", "why_tests_cant": "the pruning to partition weights in the recursion is only right because of a symmetry that holds for infinitely many shapes; its proof needs a Yang-Baxter type argument", "anchors": ["tableaux.py: Tableau._count_semistandard_marked_rpp", "tableaux.py: Tableau.count_semistandard_marked_rpp"]}
{"id": "C64", "title": "dual stable Grothendieck P-, Q- and S-polynomials are generating functions of marked reverse plane partitions", "statement": "For all strict partitions mu, nu and all n, dual_stable_grothendieck_p(n, mu, nu) and dual_stable_grothendieck_q(n, mu, nu) raise no exception and return the generating function of the marked reverse plane partitions of shifted shape mu/nu (for p, with only primes on the diagonal): a letter i gives x_i for each column that contains it, i' gives x_i for each row that contains it, and each further box gives -BETA; the mp_ versions have BETA in place of -BETA, and the _slow_ versions return an equal value whatever the order of the tableaux. For partitions mu, nu, dual_stable_grothendieck_s(n, mu, nu) raises no exception and is the same sum over fillings of the unshifted skew shape mu/nu; it looks only at the first len(mu) parts of nu, so it is not zero for every nu that is not contained in mu.", "quantifier": "all n, all strict partitions (for s: all partitions) mu, nu", "why_tests_cant": "tests compare finitely many shapes in few variables; that a sum over partition weights gives the whole generating function rests on a symmetry for all shapes", "anchors": ["symmetric.py: SymmetricPolynomial.dual_stable_grothendieck_p", "symmetric.py: SymmetricPolynomial.dual_stable_grothendieck_q", "symmetric.py: SymmetricPolynomial.dual_stable_grothendieck_s", "symmetric.py: SymmetricPolynomial.mp_dual_stable_grothendieck_p", "symmetric.py: SymmetricPolynomial.mp_dual_stable_grothendieck_q", "symmetric.py: SymmetricPolynomial._slow_dual_stable_grothendieck_p", "symmetric.py: SymmetricPolynomial._slow_dual_stable_grothendieck_q"]}
{"id": "C65", "title": "gp, gq and mp_ expansions find the unique coefficients", "statement": "gp_expansion, gq_expansion, mp_gp_expansion and mp_gq_expansion terminate without exception on every symmetric polynomial in n variables that is a combination, with coefficients in Z[BETA, 1/BETA], of the (mp_) dual stable Grothendieck P- or Q-polynomials of strict partitions with at most n parts, and return its coefficients; if they return at all, the input is the combination with the coefficients returned. The leading coefficient by which they divide is 1 for P and 2^len(mu) for Q. gs_expansion fails an assertion on gs_(2,1) itself.", "quantifier": "all n, all combinations, all coefficient vectors", "why_tests_cant": "termination, divisibility and uniqueness for all combinations need triangularity of the families for all shapes", "anchors": ["symmetric.py: SymmetricPolynomial.gp_expansion", "symmetric.py: SymmetricPolynomial.gq_expansion", "symmetric.py: SymmetricPolynomial.gs_expansion", "symmetric.py: SymmetricPolynomial.mp_gp_expansion", "symmetric.py: SymmetricPolynomial.mp_gq_expansion", "symmetric.py: SymmetricPolynomial._expansion"]}
{"id": "C66", "title": "Rothe diagrams, codes and shapes of permutations", "statement": "rothe_diagram of a permutation without signs lists, sorted and without repetitions, the pairs (i, w(j)) with i < j and w(i) > w(j), and has length(w) boxes; the involution versions keep the boxes on or below (fpf: strictly below) the diagonal, and their number is involution_length (fpf_involution_length). code counts the boxes in each row; it determines the permutation, and every sequence with c_k <= n - k is a code. involution_code and fpf_involution_code count the rows of the involution diagrams. shape is the partition formed by the code of the inverse, involution_shape and fpf_involution_shape are the transposes of the partitions formed by the codes; their sizes are the lengths. The methods raise exactly if the permutation has signs or is not an involution of the right kind.", "quantifier": "all permutations", "why_tests_cant": "the statement is about permutations of every rank; bijectivity of codes cannot be tested by sampling", "anchors": ["permutations.py: Permutation.rothe_diagram", "permutations.py: Permutation.involution_rothe_diagram", "permutations.py: Permutation.fpf_rothe_diagram", "permutations.py: Permutation.code", "permutations.py: Permutation.involution_code", "permutations.py: Permutation.fpf_involution_code", "permutations.py: Permutation.shape", "permutations.py: Permutation.involution_shape", "permutations.py: Permutation.fpf_involution_shape"]}
{"id": "C67", "title": "get_grassmannian, is_grassmannian and grassmannians agree", "statement": "For every partition mu with r parts, get_grassmannian(*mu) returns a permutation w whose inverse begins i + mu_(r+1-i), whose only left descent is r (none if mu is empty), whose shape is mu and whose length is |mu|; for other arguments the shape is the sorted partition of the nonzero arguments. is_grassmannian is True exactly for the identity and for permutations with one left descent and w(1) != 1, and raises exactly for permutations with signs. grassmannians(n) lists each such permutation with shape inside (n-1, ..., 1) once.", "quantifier": "all partitions, all permutations, all n", "why_tests_cant": "inverse bijections between infinite sets", "anchors": ["permutations.py: Permutation.get_grassmannian", "permutations.py: Permutation.is_grassmannian", "permutations.py: Permutation.grassmannians"]}
{"id": "C68", "title": "involutions of Grassmannian shape", "statement": "The involution shape of an involution, and the fpf shape of a fixed-point-free involution, are strict partitions. For a strict partition mu with r parts, get_inv_grassmannian(*mu) is the involution that exchanges r-k and r+mu_(k+1) and fixes all other numbers; it has rank r+mu_1, involution shape mu and involution length |mu|. is_inv_grassmannian is True exactly for the involutions without signs for which there is r with r < w(1) < ... < w(r) and w(x) = x or w(x) <= r for x > r, and raises exactly on permutations with signs and on those that are no involutions. inv_grassmannians(n) lists each one with mu_(k+1) <= n-1-2k once.", "quantifier": "all strict partitions, all permutations, all n", "why_tests_cant": "strictness of shapes and the two inverse constructions concern involutions of every rank", "anchors": ["permutations.py: Permutation.get_inv_grassmannian", "permutations.py: Permutation.is_inv_grassmannian", "permutations.py: Permutation.inv_grassmannians", "permutations.py: Permutation.involution_shape", "permutations.py: Permutation.fpf_involution_shape"]}
{"id": "C69", "title": "fixed-point-free involutions of Grassmannian shape", "statement": "For a strict partition mu with r parts, get_fpf_grassmannian(*mu) terminates and is the fixed-point-free involution that exchanges r-k and r+1+mu_(k+1) and pairs the other numbers up to its rank in their order; the rank is r+1+mu_1 or one more; its fpf shape is mu and its fpf length |mu|. For even n, fpf_grassmannians(n) lists each one with mu_(k+1) <= n-2-2k once; for odd n it raises. is_fpf_grassmannian(w) is True exactly if w is not both signed and fixed-point-free, and the arcs in which another arc ends have right ends n+1, n+2, ... in the order of their left ends, which are at most n, for some n.", "quantifier": "all strict partitions, all permutations, all n", "why_tests_cant": "termination of the while loop and the form of the result for all shapes", "anchors": ["permutations.py: Permutation.get_fpf_grassmannian", "permutations.py: Permutation.fpf_grassmannians", "permutations.py: Permutation.is_fpf_grassmannian", "permutations.py: Permutation._fpf_grassmannian_shape"]}
{"id": "C70", "title": "orthogonal Hecke insertion is inverted by inverse_orthogonal_hecke", "statement": "For every word in positive integers and every admissible record of positive integers (weakly increasing, strictly at descents of the word, or at weak ascents if multisetvalued=False), orthogonal_hecke(word, record) returns a pair of tableaux without failing an assertion, and inverse_orthogonal_hecke returns the word and the record; an inadmissible record is rejected; hence orthogonal_hecke is injective. Without a record the record is 1..len(word). The same holds for symplectic_hecke on words in positive even integers.", "quantifier": "all words in positive integers, all admissible positive records, both values of multisetvalued", "why_tests_cant": "the tests try all words up to a small length; the row and column phases and the diagonal transitions interact in ways that need long words", "anchors": ["insertion.py: InsertionAlgorithm.orthogonal_hecke", "insertion.py: InsertionAlgorithm.inverse_orthogonal_hecke", "insertion.py: InsertionAlgorithm.symplectic_hecke", "insertion.py: InsertionAlgorithm.inverse_symplectic_hecke", "insertion.py: FState", "insertion.py: InsertionAlgorithm._check_record", "insertion.py: InsertionAlgorithm._standardize_recording_tableau", "tableaux.py: Tableau.standardize", "tableaux.py: Tableau.negate"]}
{"id": "C71", "title": "the tableaux of orthogonal Hecke insertion", "statement": "For every word in positive integers and admissible record in 1..n, the insertion tableau of orthogonal_hecke is an increasing tableau of shifted strict partition shape with one positive entry per box, and the recording tableau is a semistandard marked shifted tableau of the same shape in the letters 1' < 1 < ... < n' < n without primes on the diagonal; it is multiset-valued, and set-valued if multisetvalued=False; its entries without primes are those of the record.", "quantifier": "all words in positive integers, all admissible positive records, both values of multisetvalued", "why_tests_cant": "semistandardness depends on the comparison of consecutive insertion paths for arbitrary tableaux", "anchors": ["insertion.py: InsertionAlgorithm.orthogonal_hecke", "insertion.py: FState.insertion_tableaux", "insertion.py: FState._row_transition", "insertion.py: FState._column_transition"]}
{"id": "C72", "title": "the tableaux of Hecke insertion with a record", "statement": "For every word in positive integers and admissible record in 1..n, whatever the cache contains, hecke(word, record) returns an increasing tableau of partition shape with one positive entry per box and a semistandard tableau of the same shape with entries in 1..n, multiset-valued, and set-valued if multisetvalued=False; its entries are those of the record.", "quantifier": "all words in positive integers, all admissible positive records, both values of multisetvalued", "why_tests_cant": "semistandardness depends on the comparison of consecutive insertion paths for arbitrary tableaux", "anchors": ["insertion.py: InsertionAlgorithm.hecke", "insertion.py: HState.insertion_tableaux", "insertion.py: InsertionAlgorithm._check_record"]}
{"id": "C73", "title": "Permutation.all lists every permutation once", "statement": "Permutation.all(n) yields every permutation of 1..n exactly once, and Permutation.all(n, signed=True) every signed permutation of 1..n exactly once.", "quantifier": "all n >= 0", "why_tests_cant": "tests only compare counts for small n, if at all; the sign patterns are decoded from a counter", "anchors": ["permutations.py: Permutation.all"]}
{"id": "C74", "title": "Permutation.involutions lists every involution once", "statement": "Permutation.involutions(n) yields every involution of 1..n exactly once; with fpf=True exactly those without fixed points (nothing for odd n); with signed=True every signed involution of 1..n exactly once. With signed=True and fpf=True and even n the argument fpf is ignored.", "quantifier": "all n >= 0", "why_tests_cant": "completeness and absence of repetition of a queue over delta vectors for every n", "anchors": ["permutations.py: Permutation.involutions", "permutations.py: Permutation.reflection_s", "permutations.py: Permutation.transposition"]}
{"id": "C75", "title": "Permutation.fpf_involutions lists every fixed-point-free involution once", "statement": "Permutation.fpf_involutions(n) yields every involution of 1..n without fixed points exactly once, ordered by fpf_involution_length, whatever the iteration order of sets, and the same ones as involutions(n, fpf=True); nothing for odd n. minfpf(n) is (2,1,4,3,...,n,n-1) for even n and fails for odd n.", "quantifier": "all n >= 0, all iteration orders of sets", "why_tests_cant": "tests check n <= 4; that levels never overlap and that the search reaches everything is a statement about all n", "anchors": ["permutations.py: Permutation.fpf_involutions", "permutations.py: Permutation.minfpf"]}
{"id": "C76", "title": "Row reading words and tableaux", "statement": "For every word w, row_reading_word of from_row_reading_word(w) is w; for a semistandard tableau T of straight shape, from_row_reading_word(T.row_reading_word()) is T. If every box has one entry, column_reading_word is the reverse of the row reading word of the transpose, and equals the concatenation of crystal_reading_word.", "quantifier": "all words; all partitions and semistandard tableaux", "why_tests_cant": "an identity between two different traversals of an arbitrary tableau", "anchors": ["tableaux.py: Tableau.row_reading_word", "tableaux.py: Tableau.from_row_reading_word", "tableaux.py: Tableau.column_reading_word", "tableaux.py: Tableau.crystal_reading_word"]}
{"id": "C77", "title": "Factorizations of words into increasing words", "statement": "get_increasing_factorizations(w, k, decreasing) yields exactly the k-tuples of weakly increasing (strictly decreasing) words with concatenation w, each once; factorization_tuple_to_array maps them bijectively to the pairs (w, i) where i is a record with values 1..k as required by Hecke insertion.", "quantifier": "all words, all k, both orders", "why_tests_cant": "completeness of a recursive generator with an early break", "anchors": ["crystals.py: WordCrystalGenerator.get_increasing_factorizations", "crystals.py: WordCrystalGenerator.factorization_tuple_to_array"]}
{"id": "C78", "title": "Crystal operators on multiset-valued tableaux", "statement": "On semistandard multiset-valued tableaux of straight shape, e_crystal_operator(i) and f_crystal_operator(i) (multisetvalued=True) do not raise; a result that is not None is semistandard multiset-valued of the same shape, has one entry i replaced by i+1 (or back), and the operators are partial inverses; the number of times f_i can be applied minus the number of times e_i can be applied is the number of i minus the number of i+1. from_crystal_reading_word inverts crystal_reading_word. For skew shapes this fails.", "quantifier": "all partitions, all semistandard multiset-valued tableaux, all i", "why_tests_cant": "the decoding of a column word could fail for an unusual column; tests try a few shapes", "anchors": ["tableaux.py: Tableau.e_crystal_operator", "tableaux.py: Tableau.f_crystal_operator", "tableaux.py: Tableau.crystal_reading_word", "tableaux.py: Tableau.from_crystal_reading_word"]}
{"id": "C79", "title": "Crystal operators on set-valued tableaux", "statement": "On semistandard set-valued tableaux of any skew shape, e_crystal_operator(i, multisetvalued=False) and f_crystal_operator(i, multisetvalued=False) do not raise; a result that is not None is semistandard set-valued of the same shape, has one entry i replaced by i+1 (or back), and the operators are partial inverses; string lengths are as in C78.", "quantifier": "all skew shapes, all semistandard set-valued tableaux, all i", "why_tests_cant": "the case distinction on the neighbouring box needs an argument about the signature for all tableaux", "anchors": ["tableaux.py: Tableau.e_crystal_operator", "tableaux.py: Tableau.f_crystal_operator", "tableaux.py: Tableau.remove", "tableaux.py: Tableau.add"]}
{"id": "C80", "title": "is_semistandard and is_standard decide semistandardness", "statement": "For a tableau whose boxes are nonempty tuples of nonzero integers, is_semistandard(diagonal_primes) does not raise and returns True exactly if every choice of one entry per box is a marked semistandard filling (1' < 1 < 2' < 2 < ..., no primed letter twice in a row, no unprimed letter twice in a column, no primes on the diagonal unless allowed); is_standard returns True exactly if moreover the absolute values are 1..N, each once.", "quantifier": "all tableaux with nonempty tuples of nonzero entries, both values of the flag", "why_tests_cant": "the test compares only extreme entries of neighbouring boxes; that this suffices is a statement about all choices", "anchors": ["tableaux.py: Tableau.is_semistandard", "tableaux.py: Tableau.is_standard"]}
{"id": "C81", "title": "Crystal graphs of tableaux", "statement": "For TableauCrystalGenerator(mu, n, setvalued=...), the assertion in f_crystal_operator never fails and the index returned is that of f_i of the tableau; edges consists of the triples (x, y, i) with 1 <= i < n and f_i(element x) = element y, each once. components ends and returns the connected components of the graph (nonempty, disjoint, covering), whatever element set.pop returns.", "quantifier": "all partitions mu, all n, both kinds of tableaux, all orders of sets; components: all finite graphs", "why_tests_cant": "closure of a generated set under the operators for all shapes; termination of a graph search", "anchors": ["crystals.py: TableauCrystalGenerator.f_crystal_operator", "crystals.py: CrystalMixin.edges", "crystals.py: CrystalMixin.components"]}
{"id": "C82", "title": "Strings of crystals of tableaux", "statement": "istrings(i) of a TableauCrystalGenerator lists the i-strings: each tableau is in exactly one of them, the members are obtained from each other by f_i, the first has e_i None, the last has f_i None.", "quantifier": "all partitions mu, all n, all 1 <= i < n", "why_tests_cant": "partition into strings for all crystals", "anchors": ["crystals.py: CrystalMixin.istrings", "crystals.py: TableauCrystalGenerator.f_crystal_operator"]}
{"id": "C83", "title": "rims generates all rims", "statement": "For a strict partition mu, rims(mu, b) yields the sets of boxes nu/mu (as sorted tuples) of all strict partitions nu that contain mu, have no two boxes (i,j), (i+1,j+1) outside mu and have at most b boxes more than mu in the first row; each exactly once. A trailing zero is ignored; a tuple that is not strictly decreasing raises.", "quantifier": "all strict partitions mu and all b", "why_tests_cant": "completeness and injectivity of a recursive generator over the border, for all shapes", "anchors": ["partitions.py: Partition.rims", "partitions.py: Partition._rims_helper"]}
{"id": "C84", "title": "KOG and KOG_by_shape generate the KOG tableaux", "statement": "For a strict partition mu, KOG(p, mu) yields, each exactly once, the fillings of rims nu/mu with letters 1..p, each used, with strictly increasing rows and columns, such that each box is weakly smaller than all boxes south-west of it or weakly larger than all of them. KOG_by_shape(p, mu) has the shapes nu with such a filling as keys and lists these fillings, each once. Both for every order in which python lists sets.", "quantifier": "all strict partitions mu, all p, all orders of sets", "why_tests_cant": "soundness and completeness of a search that removes corners level by level and tests pairs of filled cells", "anchors": ["tableaux.py: Tableau.KOG", "tableaux.py: Tableau._KOG_helper", "tableaux.py: Tableau.KOG_by_shape", "tableaux.py: Tableau._add_rim"]}
{"id": "C85", "title": "KOG_counts counts the KOG tableaux", "statement": "For a rim nu/mu of strict partitions, KOG_counts(nu, mu, p) is the number of KOG tableaux on nu/mu with letters 1..p (0 if p < 0). KOG_counts_by_shape(p, mu) has as keys the nu with such tableaux and as values their numbers; it agrees with the lengths of the lists of KOG_by_shape.", "quantifier": "all strict partitions mu, all rims nu/mu, all integers p", "why_tests_cant": "a recurrence on the last boxes of a rim against a definition by inequalities; tests compare only small shapes", "anchors": ["tableaux.py: Tableau.KOG_counts", "tableaux.py: Tableau._KOG_count_helper", "tableaux.py: Tableau.KOG_counts_by_shape", "partitions.py: Partition.rim_terminal_part"]}
{"id": "C86", "title": "KLG and KLG_by_shape generate the KLG tableaux", "statement": "For a strict partition mu, KLG(p, mu) yields, each exactly once, the fillings of rims nu/mu with letters 1', 1, ..., p', p, each number used, with strictly increasing rows and columns and no primes on the diagonal, such that a primed box is weakly smaller and an unprimed box weakly larger than all boxes south-west of it. KLG_by_shape(p, mu) has the shapes nu with such a filling as keys and lists these fillings, each once. Both for every order in which python lists sets.", "quantifier": "all strict partitions mu, all p, all orders of sets", "why_tests_cant": "soundness and completeness of a search over levels n, -n, n-1, ... with asymmetric conditions on filled cells", "anchors": ["tableaux.py: Tableau.KLG", "tableaux.py: Tableau._KLG_helper", "tableaux.py: Tableau.KLG_by_shape"]}
{"id": "C87", "title": "KLG_counts counts the KLG tableaux", "statement": "For a rim nu/mu of strict partitions, KLG_counts(nu, mu, p) is the number of KLG tableaux on nu/mu with letters 1', 1, ..., p', p (0 if p < 0). KLG_counts_by_shape(p, mu) has as keys the nu with such tableaux and as values their numbers; it agrees with the lengths of the lists of KLG_by_shape.", "quantifier": "all strict partitions mu, all rims nu/mu, all integers p", "why_tests_cant": "a recurrence with special cases at the diagonal against a definition by inequalities", "anchors": ["tableaux.py: Tableau.KLG_counts", "tableaux.py: Tableau._KLG_count_helper", "tableaux.py: Tableau.KLG_counts_by_shape", "partitions.py: Partition.rim_terminal_part"]}
{"id": "C88", "title": "Hecke insertion with a record is a bijection", "statement": "For every n, InsertionAlgorithm.hecke(w, record, m) and inverse_hecke(P, Q, m) are mutually inverse bijections between the words w of positive integers with an admissible record in 1..n (weakly increasing, and strictly increasing at every descent of w if m is set, at every weak ascent of w otherwise) and the pairs of an increasing tableau P with positive entries and a semistandard (multi)set-valued tableau Q with entries in 1..n, of the same partition shape. In particular inverse_hecke raises on no such pair.", "quantifier": "all n, both flags, all words, records and pairs of tableaux", "why_tests_cant": "surjectivity over all pairs of tableaux; tests only go from words to tableaux and back", "anchors": ["insertion.py: InsertionAlgorithm.hecke", "insertion.py: InsertionAlgorithm.inverse_hecke", "insertion.py: InsertionAlgorithm._standardize_recording_tableau"]}
{"id": "C89", "title": "Hecke insertion keeps the Demazure product", "statement": "For a word w of positive integers, w is equivalent under the 0-Hecke relations (aa = a, ab = ba for |a-b| > 1, aba = bab for |a-b| = 1) to the row reading word of the insertion tableau of hecke(w) and to the reversed column reading word of that of hecke(w, multisetvalued=False). So w and the reading word are Hecke words of the same permutation, and words with the same insertion tableau have the same Demazure product.", "quantifier": "all words of positive integers, all records, both flags", "why_tests_cant": "invariance over all words; the tests never compare reading words with the inserted word", "anchors": ["insertion.py: InsertionAlgorithm.hecke", "insertion.py: HState.next", "tableaux.py: Tableau.row_reading_word", "tableaux.py: Tableau.column_reading_word"]}
{"id": "C90", "title": "crystals of factorizations of Hecke words", "statement": "WordCrystalGenerator(oneline, k, length, decreasing) for a permutation w without signs: elements lists, each once, the Hecke words of w with `length` letters together with their factorizations in k weakly increasing (strictly decreasing) words, whatever earlier runs left in the cache of Hecke levels. The assertion in f_crystal_operator never fails: f_crystal_operator(x, i) is None if f_i of the recording tableau of x is None, and otherwise the index of the only element with the same insertion tableau whose recording tableau is f_i of that of x. edges lists these arrows for 1 <= i < k, each once; the elements of a component have the same insertion tableau.", "quantifier": "all permutations without signs, all k, all lengths >= 0, both flags, all states of the caches", "why_tests_cant": "the assertion depends on Hecke insertion being onto and keeping the Demazure product, for all words", "anchors": ["crystals.py: WordCrystalGenerator.__init__", "crystals.py: WordCrystalGenerator.factorizations", "crystals.py: WordCrystalGenerator.f_crystal_operator", "crystals.py: CrystalMixin.edges", "crystals.py: CrystalMixin.components"]}
{"id": "C91", "title": "The doublebar functions are generating functions of tableaux", "statement": "For (strict) partitions mu, nu, stable_grothendieck{,_s,_p,_q}_doublebar(n, mu, nu, degree_bound) raises no exception, returns a symmetric polynomial without zero coefficients, and equals the sum over all set-valued (marked, shifted marked) tableaux whose boxes are the boxes of mu outside nu together with any set of corners of nu, with a factor x_i for each letter i or i' and a factor beta for each letter beyond |mu| - |nu|; with a degree bound only the tableaux with at most that many letters count. It is zero when nu is not inside mu.", "quantifier": "all n, all pairs of (strict) partitions, all degree bounds", "why_tests_cant": "infinitely many shapes and numbers of variables; the tests only compare the functions with each other for small sizes", "anchors": ["symmetric.py: SymmetricPolynomial.stable_grothendieck_doublebar", "symmetric.py: SymmetricPolynomial.stable_grothendieck_s_doublebar", "symmetric.py: SymmetricPolynomial.stable_grothendieck_p_doublebar", "symmetric.py: SymmetricPolynomial.stable_grothendieck_q_doublebar"]}
{"id": "C92", "title": "The doublebar functions describe splitting the variables", "statement": "For (strict) partitions mu, kappa and all n, m, the doublebar function of mu, kappa in n + m variables equals the sum over the (strict) partitions nu inside mu of the doublebar function of nu, kappa in the first n variables times that of mu, nu in the last m variables, for each of G, GS, GP, GQ. For kappa = () the doublebar function is the ordinary function.", "quantifier": "all n, m, all pairs of (strict) partitions, all values of the variables", "why_tests_cant": "an identity of polynomials in arbitrarily many variables, whose right side ranges over all shapes", "anchors": ["symmetric.py: SymmetricPolynomial.stable_grothendieck_doublebar", "symmetric.py: SymmetricPolynomial.stable_grothendieck_s_doublebar", "symmetric.py: SymmetricPolynomial.stable_grothendieck_p_doublebar", "symmetric.py: SymmetricPolynomial.stable_grothendieck_q_doublebar", "partitions.py: Partition.subpartitions"]}
{"id": "C93", "title": "The skew functions can be recovered from the doublebar functions", "statement": "For (strict) partitions mu inside lam, each coefficient of stable_grothendieck{,_s,_p,_q}(n, lam, mu, degree_bound) is the sum over the (strict) partitions nu inside mu of (-beta)^(|mu| - |nu|) times that of the doublebar function of lam, nu.", "quantifier": "all n, all pairs of (strict) partitions mu inside lam, all degree bounds", "why_tests_cant": "tests/test_skew.py test_undo_doublebar checks GP and GQ for partitions of size at most 5 in 5 variables", "anchors": ["symmetric.py: SymmetricPolynomial.stable_grothendieck_doublebar", "symmetric.py: SymmetricPolynomial.stable_grothendieck_s_doublebar", "symmetric.py: SymmetricPolynomial.stable_grothendieck_p_doublebar", "symmetric.py: SymmetricPolynomial.stable_grothendieck_q_doublebar", "tests/test_skew.py: test_undo_doublebar"]}
{"id": "C94", "title": "The strip operators add a horizontal or vertical ribbon on given diagonals", "statement": "For 0 <= a <= b and strict mu, sh_horizontal_strip(a, b)(mu) is the strict partition whose shifted diagram is that of mu together with one new box on each diagonal a, ..., b, all in one row, and None when there is no such partition; sh_vertical_strip(a, b)(mu) is the same with one column. None is sent to None, and b < a raises AssertionError. In terms of parts, a becomes b + 1.", "quantifier": "all a, b, all strict partitions", "why_tests_cant": "infinitely many partitions and intervals; the tests only compare compositions for n at most 7", "anchors": ["dualops.py: sh_horizontal_strip", "dualops.py: sh_vertical_strip"]}
{"id": "C95", "title": "Relations between strip operators", "statement": "On strict partitions, strip operators on intervals of diagonals with a diagonal between them commute (horizontal with horizontal, horizontal with vertical, vertical with vertical); a horizontal after a vertical strip on intersecting intervals is zero; a vertical after a horizontal strip on intersecting intervals is zero, unless both intervals start in 0 and exactly one of them is longer than one diagonal, where it is not always zero.", "quantifier": "all a <= b, c <= d, all strict partitions", "why_tests_cant": "tests/test_dualops.py checks the relations for intervals below 7 and partitions of size at most 7", "anchors": ["dualops.py: sh_horizontal_strip", "dualops.py: sh_vertical_strip", "tests/test_dualops.py: test_separated_commuting", "tests/test_dualops.py: test_intersect_zero_hv", "tests/test_dualops.py: test_intersect_zero_vh"]}
{"id": "C96", "title": "operator_shifted_add adds a box on a diagonal", "statement": "For a vector v whose keys are strict partitions, operator_shifted_add(index)(v) raises no exception; its keys are strict; the coefficient of nu is beta*v[nu] + v[mu] when the shifted diagram of nu has a corner on the diagonal |index|, where mu is nu without this corner, and 0 otherwise. A tuple is treated as the vector with one term.", "quantifier": "all integers index, all vectors with strict keys, every commutative ring of coefficients", "why_tests_cant": "tests/test_operators.py has five examples", "anchors": ["operators.py: operator_decorator", "operators.py: operator_shifted_add"]}
{"id": "C97", "title": "Relations between the operators that add boxes", "statement": "Write u_i for operator_shifted_add(i) on vectors with strict keys, with the returned int 0 read as the zero vector. Then u_i u_i = beta u_i; u_i u_j = u_j u_i for |i - j| >= 2; u_i u_{i+1} u_i = 0 for i >= 1; u_{i+1} u_i u_{i+1} = 0 for i >= 0; u_0 u_1 u_0 is not 0.", "quantifier": "all i, j, all vectors with strict keys", "why_tests_cant": "relations between operators on infinitely many partitions; not tested", "anchors": ["operators.py: operator_shifted_add"]}
{"id": "C98", "title": "operator_AL and operator_AR generate the functions GQ", "statement": "For strict mu and nu with nu_1 <= n + 1, the coefficient of nu in operator_AL(n, y)(operator_AR(n, y)(mu)) is stable_grothendieck_q_doublebar(1, nu, mu) at y; applying this for variables x_1, ..., x_m one after the other gives stable_grothendieck_q_doublebar(m, nu, mu) at x_1, ..., x_m, so GQ_nu for mu = ().", "quantifier": "all n, m, all strict mu and nu with nu_1 <= n + 1, all values of the variables", "why_tests_cant": "infinitely many shapes; the functions operator_AL and operator_AR are not tested", "anchors": ["operators.py: operator_AL", "operators.py: operator_AR", "symmetric.py: stable_grothendieck_q_doublebar"]}
{"id": "C99", "title": "The operators that remove a strip, on a partition", "statement": "For strict mu, operator_shifted_row_remove(index)(mu) has coefficient (-beta)^(|index| - a) at a strict nu when mu is nu and new boxes in one row on the diagonals a, ..., |index|, and 0 otherwise; operator_shifted_column_remove(index)(mu) has coefficient (-beta)^(b - |index|) at nu when mu is nu and new boxes in one column on the diagonals |index|, ..., b, and 0 otherwise. No exception is raised and the loops end.", "quantifier": "all integers index, all strict mu", "why_tests_cant": "tests/test_operators.py has eight examples", "anchors": ["operators.py: operator_shifted_row_remove", "operators.py: operator_shifted_column_remove"]}
{"id": "C100", "title": "Linearity of the operators that remove a strip", "statement": "operator_shifted_row_remove(index) and operator_shifted_column_remove(index) are linear: the result for a vector is the sum over its keys mu of v[mu] times the result for mu.", "quantifier": "all integers index, all vectors with strict keys", "why_tests_cant": "the tests apply the operators to tuples only", "anchors": ["operators.py: operator_shifted_row_remove", "operators.py: operator_shifted_column_remove", "operators.py: operator_R"]}
{"id": "C101", "title": "Transposed dual stable Grothendieck polynomials as sums over tableaux", "statement": "For partitions mu, nu and beta either -BETA (the default) or BETA, slow_transposed_dual_stable_grothendieck(n, mu, nu, beta) raises no exception and its polynomial is the sum over the semistandard tableaux T of shape mu/nu with entries at most n of the product over i of x_i^r (x_i - beta)^(a - r), where i occurs in a boxes and in r rows of T. For strict partitions the functions ..._p and ..._q are the sums over the shifted marked tableaux, without or with primes on the diagonal, of the product of x_i^(r + c) (x_i - beta)^(a - r - c), where i or i' occurs in a boxes, i in r rows and i' in c columns. For partitions, ..._s is the same for the marked tableaux of the unshifted shape. The results do not depend on the order in which the sets of tableaux are traversed.", "quantifier": "all n, all (strict) partitions mu, nu, both values of beta, all orders of the tableaux", "why_tests_cant": "the code keeps the monomials whose exponents form a partition, and so relies on the symmetry of the sums, which is a theorem about infinitely many shapes", "anchors": ["symmetric.py: slow_transposed_dual_stable_grothendieck", "symmetric.py: slow_transposed_dual_stable_grothendieck_p", "symmetric.py: slow_transposed_dual_stable_grothendieck_q", "symmetric.py: slow_transposed_dual_stable_grothendieck_s"]}
{"id": "C102", "title": "The transposed dual polynomials are inverse to the dual polynomials", "statement": "For strict lam and mu, the sums over the strict kappa between mu and lam of (-1)^|lam/kappa| gq_{lam/kappa} jq_{kappa/mu} and of (-1)^|kappa/mu| jq_{lam/kappa} gq_{kappa/mu} are 1 if lam = mu and 0 otherwise. Here gq and jq are the polynomials of dual_stable_grothendieck_q(n, ., .) and slow_transposed_dual_stable_grothendieck_q(n, ., .). The same holds for the P-versions.", "quantifier": "all n, all strict lam, mu", "why_tests_cant": "an identity between two families of tableaux, for infinitely many shapes", "anchors": ["symmetric.py: slow_transposed_dual_stable_grothendieck_p", "symmetric.py: slow_transposed_dual_stable_grothendieck_q", "symmetric.py: dual_stable_grothendieck_p", "symmetric.py: dual_stable_grothendieck_q"]}
{"id": "C103", "title": "Expansions in the transposed dual polynomials", "statement": "For a symmetric polynomial f with coefficients in Z[beta, 1/beta], j_expansion(f) terminates, no assertion fails, and it returns the unique coefficients of f in the transposed dual polynomials of C101. jp_expansion and jq_expansion terminate on exactly the combinations of the P- or Q-versions, and return their coefficients.", "quantifier": "all n, all symmetric polynomials, all orders of the tableaux", "why_tests_cant": "the recursion has no bound that is known in advance, and its assertions depend on divisibility", "anchors": ["symmetric.py: j_expansion", "symmetric.py: jp_expansion", "symmetric.py: jq_expansion", "symmetric.py: js_expansion"]}
{"id": "C104", "title": "Little bumps stop and give reduced words", "statement": "If word is a tuple of non-negative letters and dropping the letter at i leaves a reduced word, little_push(word, i) does not raise: it adds one to that letter, and reports None if the new word is reduced, and otherwise another index whose letter can be dropped to give the same permutation. For a reduced word and a permutation y of length one less, the loop of little_bump(word, y) stops without an exception. If the permutation of the word covers y in the Bruhat order, the result is a different reduced word of the same length, with letters at least as large, whose permutation also covers y; otherwise the word itself is returned. little_bump(word, j, k) is the bump for y = w * t_(j,k) if that has length one less, and returns the word otherwise.", "quantifier": "all words, signed permutations included, all indices", "why_tests_cant": "termination of a while loop for infinitely many words", "anchors": ["permutations.py: little_push", "permutations.py: little_bump"]}
{"id": "C105", "title": "Little bumps are transitions and keep descents", "statement": "For a reduced word of positive letters whose permutation is t_(q,r) y with q < r, where y has length one less, little_bump(word, y) is a reduced word of t_(r,s) y for some s > r. Every letter is raised by at most one, and position k is a descent of the result exactly if it is one of the word.", "quantifier": "all reduced words of positive letters, all y, q, r", "why_tests_cant": "infinitely many words, and the number of pushes is not bounded in advance", "anchors": ["permutations.py: little_push", "permutations.py: little_bump"]}
{"id": "C106", "title": "Little bumps of involution words stop and give involution words", "statement": "If dropping the letter at i of a word leaves a reduced involution word of v, involution_little_push(word, i) does not raise: it adds one to that letter, and reports None if the new word is a reduced involution word, and otherwise another index whose letter can be dropped to give an involution word of v. For a reduced involution word of z and an involution y of involution length one less, the loop of involution_little_bump(word, y) stops without an exception. If y is below z in the Bruhat order, the result is a different reduced involution word of the same length, with letters at least as large, of an involution above y; otherwise the word itself is returned.", "quantifier": "all words, signed involutions included, all indices", "why_tests_cant": "termination of a while loop for infinitely many words", "anchors": ["permutations.py: involution_little_push", "permutations.py: involution_little_bump", "permutations.py: from_involution_word"]}
{"id": "C107", "title": "Little bumps of fpf-involution words stop and give fpf-involution words", "statement": "For words of positive letters. If dropping the letter at i of a word leaves a reduced word of a fixed-point-free involution v, fpf_involution_little_push(word, i) does not raise: it adds one to that letter, reports None if the new word is reduced, i itself if the fpf_involution_length of its value is smaller by one, and otherwise another index; dropping the letter at the reported index leaves a word of v. For a reduced word and a fixed-point-free involution y, the loop of fpf_involution_little_bump(word, y) stops without an exception: if dropping some letter leaves a reduced word of y, the result is a different reduced word of the same length, with letters at least as large, and dropping some letter of it leaves a reduced word of y; otherwise the word itself is returned. With two further arguments j, k and z the involution of the word it is the bump for t z t, with t the transposition of j and k, if some atom x of z has length one more than x t and t z t has fpf_involution_length one less than z, and returns the word otherwise.", "quantifier": "all words of positive letters, all indices, all unsigned fixed-point-free involutions y, all orders of the set of atoms", "why_tests_cant": "termination of a while loop for infinitely many words", "anchors": ["permutations.py: fpf_involution_little_push", "permutations.py: fpf_involution_little_bump", "permutations.py: from_fpf_involution_word"]}
{"id": "C108", "title": "get_atoms lists exactly the atoms of a signed involution, and get_involution_words its involution words", "statement": "For every signed permutation w with w = w.inverse(), get_atoms() stops without an exception, and the permutations it lists are exactly the products of the words a for which from_involution_word(a) is w. Equivalently they are the shortest x for which the Demazure product x.inverse() % x is w, and there is at least one. get_min_atom() is one of them. get_involution_words() yields exactly the words a for which from_involution_word(a) is w, if get_reduced_words() of each atom yields its reduced words. For other permutations the assertions of get_atoms and get_min_atom fail.", "quantifier": "all signed permutations w, of every rank", "why_tests_cant": "the search is complete only if no atom is unreachable from the first, for infinitely many involutions and both kinds of moves", "anchors": ["permutations.py: _get_atoms", "permutations.py: get_atoms", "permutations.py: get_min_atom", "permutations.py: _min_inv_atom_oneline", "permutations.py: cyc", "permutations.py: get_involution_words"]}
{"id": "C109", "title": "involution_little_bump with a pair of numbers bumps along an involution below the given one", "statement": "Let word be a reduced involution word of z and j, k positive. Call y a candidate if some atom of y is x t, for an atom x of z with len(x t) = len(x) - 1 and t the transposition of j and k. If there is no candidate, involution_little_bump(word, j, k) returns the word. Otherwise it is involution_little_bump(word, y) for a candidate y, whatever order get_atoms lists the atoms in; it stops, and returns another reduced involution word of the same length, with letters at least as large, whose involution is again above y. Every candidate is below z in the Bruhat order, with involution length smaller by one. There can be several candidates with different results. A word that is not reduced fails the assertion.", "quantifier": "all words, all j, k >= 1, all orders of the atoms", "why_tests_cant": "the atoms, the candidates and the number of rounds of the loop are unbounded", "anchors": ["permutations.py: involution_little_bump"]}
{"id": "C110", "title": "The transitions of an involution are its covers in the Bruhat order on involutions", "statement": "Let y be an unsigned involution. For 1 <= i < j, y.tau(i, j) is an unsigned involution above y in the Bruhat order. An unsigned involution z covers y in the Bruhat order restricted to involutions if and only if z = y.tau(i, j) for some 1 <= i < j and involution_length(z) = involution_length(y) + 1. lower_involution_transitions(r) lists, in increasing order, the i < r for which tau(i, r) covers y; upper_involution_transitions(r) lists the j > r up to the rank n of y for which tau(r, j) covers y. No j > max(n, r) + 1 gives a cover, but j = n + 1 may, and is not listed. For other permutations both fail an assertion.", "quantifier": "all unsigned involutions, all i, j, r >= 1", "why_tests_cant": "the rank is unbounded, and that nothing lies between is a statement about all involutions", "anchors": ["permutations.py: tau", "permutations.py: upper_involution_transitions", "permutations.py: lower_involution_transitions"]}
{"id": "C111", "title": "The transitions of a fixed-point-free involution are its covers in the Bruhat order on fixed-point-free involutions", "statement": "Let y and z be fixed-point-free involutions of rank n. Then z covers y in the Bruhat order restricted to these if and only if z = t y t for the transposition t of some i < j <= n and fpf_involution_length(z) = fpf_involution_length(y) + 1. For r <= n, lower_fpf_involution_transitions(r) of y lists in increasing order the i < r for which conjugation with the transposition of i and r gives a cover. For 1 <= r <= n, upper_fpf_involution_transitions(r) lists in increasing order the j > r for which conjugation with the transposition of r and j gives a cover, where y may be continued by any positive number of cycles (n+1, n+2), (n+3, n+4), ...: no transition is missed. For other permutations both fail an assertion.", "quantifier": "all fixed-point-free involutions, all r from 1 to n, all continuations", "why_tests_cant": "the rank and the number of cycles added are unbounded, and that nothing lies between is a statement about all involutions", "anchors": ["permutations.py: upper_fpf_involution_transitions", "permutations.py: lower_fpf_involution_transitions"]}
{"id": "C112", "title": "The key of a skew shape determines the shape up to translation", "statement": "skew_key(mu, nu, shifted) ends for all tuples mu and nu. For partitions it returns the boxes of a translate of mu/nu in increasing order, all rows and columns positive and, unless the shape is empty, with a box in row 1 and a box in column 1. Two pairs of partitions have the same key if and only if their skew shapes are translates of each other. With shifted = True, two pairs of strict partitions have the same key if and only if their shifted skew shapes are translates of each other along the diagonal, or are translates of each other and neither has a box on the diagonal.", "quantifier": "all pairs of partitions, all pairs of strict partitions", "why_tests_cant": "the shapes and the distance between them are unbounded", "anchors": ["partitions.py: skew_key"]}
{"id": "C113", "title": "Boxes added to rows and columns, merged shapes, ribbon complements and ribbons", "statement": "For a partition p, add_box_to_column(p, col, False) returns q if and only if q is a partition whose diagram is the diagram of p with one more box, in column col; otherwise the assertion fails; for strict p the same holds with shift = True and shifted diagrams. add_box_to_row(p, row) adds one to entry row and keeps all other entries. isin_shifted(mu, i, j) holds for ints exactly on the shifted diagram. merge_shifted(mu, shape) is the strict partition whose shifted diagram is the union, if there is one. shifted_ribbon_complements(mu) lists once each the strict partitions kappa with mu_{i+1} <= kappa_i <= mu_i. shifted_ribbon of utils.py agrees with that of partitions.py on nonempty compositions and raises IndexError on the empty one. shifted_ribbons(0) yields the pair of empty partitions, and shifted_ribbons(n) raises IndexError for every n >= 1 before it yields anything.", "quantifier": "all partitions, columns and rows, all compositions, all n", "why_tests_cant": "the shapes are unbounded, and the failure is claimed for all n", "anchors": ["partitions.py: add_box_to_column", "partitions.py: add_box_to_row", "partitions.py: isin_shifted", "partitions.py: merge_shifted", "partitions.py: shifted_ribbon_complements", "partitions.py: shifted_ribbons", "utils.py: shifted_ribbon"]}
{"id": "C114", "title": "from_skew recovers partitions from the boxes of a skew shape", "statement": "Let positions be the nonempty set of boxes of a skew shape nu0/mu0 of partitions. Then from_skew(positions) ends and returns partitions nu and mu with mu inside nu such that nu/mu is the given shape moved to the left until its last row starts in column 1; nu has no rows below the shape, and a row without boxes is as long as the next row of nu. With shifted = True the same holds for strict partitions and shifted shapes, with the diagonal in place of column 1, and a row without boxes is one longer than the next row. On the empty set the function never ends.", "quantifier": "all nonempty skew shapes, shifted or not", "why_tests_cant": "the shapes are unbounded, and nontermination cannot be observed", "anchors": ["partitions.py: from_skew"]}
{"id": "C115", "title": "Shifted growth diagrams are well defined and follow the local rules", "statement": "For a dictionary with values 0 and 1 and at most one 1 in each column, and in particular for every word of non-negative ints, shifted_growth_diagram raises no exception and returns an array of n+1 rows of m+1 cells. Row 0 and column 0 are empty. All shapes are strict partitions. The step from a cell to the cell below adds a set of boxes with no two in a row or column. The step from a cell to the next cell of the row changes nothing before the 1 of the column; from the row of the 1 on it adds exactly one box, or it adds no box and its mark is the row (without edge flag) or the column (with edge flag) of a corner of the shape; a flag is never set for a box or a corner on the diagonal. Every cell follows from its three neighbours by one of the local rules of shifted growth diagrams, stated with sets of boxes.", "quantifier": "all words and all such dictionaries", "why_tests_cant": "the number and the size of the diagrams are unbounded; the tests compare a few words with an insertion algorithm", "anchors": ["partitions.py: shifted_growth_diagram"]}
{"id": "C116", "title": "The tableaux of a shifted growth diagram", "statement": "For a shifted growth diagram as in C115 with a 1 in every column, in particular for every word of positive ints, from_shifted_growth_diagram raises no exception and returns tableaux p and q of the shape in the last corner of the diagram. p has one entry per box, strictly increasing along rows and columns, and the entry of a box is the first row of the diagram whose last shape contains it; the entries are at most the largest letter. q has the numbers 1, ..., m once up to sign, in nonempty sorted tuples; |entries| increase strictly from a box to all other boxes weakly south-east of it, no entry on the diagonal is negative, and j or -j (by the edge flag) is in the box that is added or marked in column j of the last row.", "quantifier": "all words of positive ints and all such diagrams", "why_tests_cant": "unbounded words; the tests compare a few words with an insertion algorithm", "anchors": ["tableaux.py: from_shifted_growth_diagram", "tableaux.py: last_box_in_row", "tableaux.py: last_box_in_column"]}
{"id": "C117", "title": "Valued-set tableaux and the transposed dual functions", "statement": "For strict partitions mu and nu, ValuedSetTableau.all(n, mu, nu, diagonal_primes) raises no exception and returns exactly the pairs (T, G) of a shifted marked tableau T of the shape mu/nu with letters up to n and a grouping G: G has the boxes of T, each box has 0 or 1, and 1 only if the entry is positive and equal to the entry to the right, or negative and equal to the entry in the row before. weight(n) of such a pair is the tuple whose i-th entry is the number of boxes with grouping 0 and entry i or -i. The sum over all the pairs of x^weight times (-beta)^(number of ones in G) is the function that slow_transposed_dual_stable_grothendieck_p (without primes on the diagonal) or _q (with them) returns.", "quantifier": "all strict partitions mu, nu, all n, both values of diagonal_primes, beta = BETA or -BETA, every order in which the sets are traversed", "why_tests_cant": "unbounded shapes and numbers of variables; the identity with the dual functions is not tested at all", "anchors": ["vst.py: is_valid_position", "vst.py: __init__", "vst.py: _all", "vst.py: weight", "symmetric.py: slow_transposed_dual_stable_grothendieck_p"]}
{"id": "C118", "title": "Groups of valued-set tableaux", "statement": "On every tableau with one nonzero int in each box, is_semistandard() raises no exception and is True exactly when rows and columns increase weakly for 1' < 1 < 2' < 2 < ..., primed letters strictly along rows and unprimed letters strictly along columns; it is True for everything in ValuedSetTableau.all. For every valued-set tableau with such a tableau, singletons() lists in order the boxes with grouping 0 in which no box with grouping 1 is continued. unprime() and unprime_diagonal() raise no exception (the assertion of the constructor holds), remove exactly the primes of all singletons, or of those on the diagonal, and keep the singletons and the weight; after unprime() no singleton has a prime.", "quantifier": "all valued-set tableaux whose tableau has one nonzero int in each box", "why_tests_cant": "unbounded shapes and groupings; the tests use the methods on small cases only as helpers", "anchors": ["vst.py: is_semistandard", "vst.py: singletons", "vst.py: unprime", "vst.py: unprime_diagonal", "vst.py: is_group_start"]}
{"id": "C119", "title": "Groups of a letter in a valued-set tableau", "statement": "For a valued-set tableau whose tableau has one nonzero int in each box, get_horizontals(v) with v > 0 and get_verticals(v) with v < 0 return two lists of equal length whose pairs are exactly the first and last boxes of the groups of the letter v: boxes in a row (column) with the entry v, grouping 1 in all but the last (first) of them, and not continued from elsewhere. The lists are ordered by row and from right to left (by column from right to left, and by row), and every box with the entry v is in exactly one of the groups.", "quantifier": "all valued-set tableaux whose tableau has one nonzero int in each box, all v", "why_tests_cant": "unbounded shapes and groupings; no test calls these methods directly", "anchors": ["vst.py: get_horizontals", "vst.py: get_verticals"]}
{"id": "C120", "title": "in_same_group agrees with the groups", "statement": "For two boxes of a valued-set tableau that are next to each other, in_same_group is True exactly when they are in the same group, that is when one has grouping 1 and is continued in the other.", "quantifier": "all valued-set tableaux, all pairs of adjacent boxes", "why_tests_cant": "no test calls the method", "anchors": ["vst.py: in_same_group", "vst.py: is_valid_position"]}
{"id": "C121", "title": "unprime_diagonal keeps the weight and settles the diagonal", "statement": "For a tableau without empty boxes and zero entries unprime_diagonal stops without an exception. The multiset of the absolute values of the entries is kept, at most one entry -v becomes v for each box of the diagonal while all other signs are kept, and no box vanishes. In the result every box (i, i) up to the first absent one has only positive entries, or exactly one negative entry whose absolute value is larger than all its positive entries; a tableau with such a diagonal is returned unchanged, and a box (1, 1) not of this kind becomes the least absolute value v of its negative entries with its positive entries below v. setvalued_column_insert, with a nonempty tuple, loses and makes no entries, changes only its column, and adds boxes only at the end of the column.", "quantifier": "all tableaux without empty boxes and zeros, all columns and nonempty tuples", "why_tests_cant": "the test only prints, and checks three tableaux; the loops have no evident bound", "anchors": ["insertion.py: InsertionAlgorithm.unprime_diagonal", "insertion.py: InsertionAlgorithm.setvalued_column_insert"]}
{"id": "C122", "title": "setvalued_column_insert keeps a column increasing", "statement": "Let the boxes of a column be in its first rows, with entries increasing down the column in the order 1' <= 1' < 1 < 2' <= 2' < 2 < ... (k' is -k), so that only primed entries repeat. Inserting a nonempty tuple in which no positive entry repeats gives a column with the same property, and the returned tuple again has no positive entry twice.", "quantifier": "all tableaux without empty boxes, all columns that are increasing, all nonempty tuples without repeated positive entries", "why_tests_cant": "unbounded columns and tuples; the test only checks three tableaux", "anchors": ["insertion.py: InsertionAlgorithm.setvalued_column_insert"]}
{"id": "C123", "title": "descent_set is the descent set of the shifted reading word", "statement": "descent_set passes its assertions only if the absolute values of the entries are 1, ..., n, each once. For such a tableau, with sorted boxes, in which of two unprimed entries i, i+1 in one row (primed entries in one column) i+1 is not left of (above) i, it passes its assertions and the result consists of the i with 1 <= i < n such that i+1 is before i in shifted_reading_word.", "quantifier": "all tableaux, straight, shifted or skew, with several entries per box allowed", "why_tests_cant": "unbounded set of tableaux; there is no test that compares the two functions", "anchors": ["tableaux.py: Tableau.descent_set", "tableaux.py: Tableau.shifted_reading_word"]}
{"id": "C124", "title": "The refined dual stable Grothendieck functions count tableaux by their diagonals", "statement": "For strict partitions mu and nu, _slow_refined_dual_stable_grothendieck_p and _q raise no exception, whatever the order of the set of marked reverse plane partitions. The value at the tuple d has at the partition k the coefficient (-beta)^(|mu|-|nu|-|k|) times the number of tableaux of weight k whose diagonal entries have the absolute values d, and tuples with value zero do not occur. The values add up to dual_stable_grothendieck_p and dual_stable_grothendieck_q.", "quantifier": "all numbers of variables, all strict partitions mu, nu, all orders of iteration", "why_tests_cant": "unbounded shapes; the tests use the two functions only in a conjecture and do not compare them with the unrefined ones", "anchors": ["symmetric.py: SymmetricPolynomial._diag_vector", "symmetric.py: SymmetricPolynomial._slow_refined_dual_stable_grothendieck_p", "symmetric.py: SymmetricPolynomial._slow_refined_dual_stable_grothendieck_q"]}
{"id": "C125", "title": "A semistandard valued-set tableau has at most one hinge for each index", "statement": "For a semistandard tableau of a shifted skew shape with one nonzero number per box and index > 0, the assertion in hinge(index) holds. hinge returns the only x such that the boxes (x,x), (x,x+1), (x+1,x+1) contain letters index or index+1, primed or not, and None if there is none; at a hinge the two diagonal letters are index and index+1 up to primes. All tableaux returned by ValuedSetTableau.all satisfy the hypotheses.", "quantifier": "all strict partitions mu, nu, all semistandard tableaux of shape mu/nu, all index > 0", "why_tests_cant": "the assertion is a statement about all tableaux of all shapes", "anchors": ["vst.py: ValuedSetTableau.hinge"]}
{"id": "C126", "title": "omega_schur_expansion gives the coefficients at the conjugate partitions", "statement": "For a symmetric polynomial f in n variables with coefficients in Z[beta, 1/beta], omega_schur_expansion(f) terminates without a failing assertion. Its coefficient at a partition lam is the coefficient of the Schur polynomial of the conjugate partition of lam in the unique Schur expansion of f. Its keys are partitions with parts at most n, with nonzero coefficients, so no two terms are merged.", "quantifier": "all n and all symmetric polynomials f with coefficients in Z[beta, 1/beta]", "why_tests_cant": "quantifies over all symmetric polynomials and all numbers of variables", "anchors": ["symmetric.py: SymmetricPolynomial.omega_schur_expansion"]}
{"id": "C127", "title": "Calling a polynomial substitutes for several variables at once", "statement": "Let p be a polynomial P in the variables times a Laurent monomial in variables that are not keys of the dict x. Then p(x) returns, without raising, the monomial times the value of P where each variable x_j with j in x is replaced by x[j] and every other variable by itself. The substitution is simultaneous: variables inside the values x[j] are not replaced again.", "quantifier": "all such Laurent polynomials p without stored zero coefficients and all dicts x of polynomials", "why_tests_cant": "quantifies over all polynomials and all simultaneous substitutions", "anchors": ["polynomials.py: Polynomial.__call__"]}
{"id": "C128", "title": "is_shifted_column_superstandard decides column superstandard tableaux", "statement": "is_shifted_column_superstandard returns True exactly when every box contains one number and that number is the position of the box when the boxes are read column by column, from top to bottom.", "quantifier": "all tableaux of any shape, with any tuples of integers in the boxes", "why_tests_cant": "quantifies over all tableaux", "anchors": ["tableaux.py: Tableau.is_shifted_column_superstandard"]}
{"id": "C129", "title": "rpp_excess counts the boxes that repeat in the box below", "statement": "For a tableau with one value in each box, rpp_excess returns the number of boxes whose value is also the value of the box below.", "quantifier": "all tableaux with one value per box", "why_tests_cant": "no test calls it; the statement is about all tableaux", "anchors": ["tableaux.py: Tableau.rpp_excess"]}
{"id": "C130", "title": "gp_free_expansion is sound", "statement": "Whenever gp_free_expansion(f) returns, f is the sum, with the coefficients returned, of products of dual stable Grothendieck P-polynomials of the one-row shapes given by the parts of the keys; the keys are nonempty strict partitions. It raises on every nonzero constant.", "quantifier": "all n, all symmetric polynomials f in n variables, any depth of the recursion", "why_tests_cant": "quantifies over all symmetric polynomials; no test calls it", "anchors": ["symmetric.py: SymmetricPolynomial.gp_free_expansion"]}
{"id": "C131", "title": "primed_groups counts groups and is_highest_weight recognises trivial groupings", "statement": "For a valued-set tableau, primed_groups() is the number of groups of primed letters, primed_groups(*args) the number of groups of those primed letters whose value or negative is in args, and is_highest_weight() holds exactly when every group consists of one box.", "quantifier": "all valued-set tableaux, all lists of arguments", "why_tests_cant": "no test calls them; the statement is about all valued-set tableaux", "anchors": ["vst.py: ValuedSetTableau.primed_groups, is_highest_weight"]}
{"id": "C132", "title": "tests and integer division of vectors", "statement": "is_singleton holds exactly for vectors with one nonzero coefficient, equal to 1; is_nonnegative exactly when no coefficient is negative; is_positive when moreover some coefficient is positive. v // d divides every coefficient by d, rounding down, keeps no zeros, raises exactly for d = 0 and nonzero v, and undoes the multiplication by d.", "quantifier": "all vectors over any set of keys, all ints d", "why_tests_cant": "quantifies over all vectors and divisors, including negative ones", "anchors": ["vectors.py: Vector.is_singleton, is_nonnegative, is_positive, __floordiv__"]}
{"id": "C133", "title": "shape, size and content of tableaux", "statement": "shape() of a tableau whose boxes are the diagram or shifted diagram of lam is lam; the parts of shape() add up to size(). counter() gives the number of occurrences of every letter; its values add up to size() + setvalued_excess(), and weighted with the absolute values of the letters to abs_sum().", "quantifier": "all tableaux, also set-valued ones; all partitions lam", "why_tests_cant": "quantifies over all tableaux", "anchors": ["tableaux.py: Tableau.size, abs_sum, shape, setvalued_excess, counter"]}
