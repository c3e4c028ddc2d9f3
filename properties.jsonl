{"id": "C01", "title": "Modular inverses are correct and never overflow", "statement": "For every modulus p>1 that fits the 8, 16 or 32 bit coefficient type and every value coprime to p, the modular inverse routine returns a number r with 0 <= r < p and r*val = 1 (mod p), and no intermediate value leaves the range of the signed machine type the routine uses.", "quantifier": "every modulus of the type, every value of the type coprime to it, every step of the Euclidean loop", "why_tests_cant": "a 32 bit modulus and value give 2^64 pairs; overflow happens only on rare quotient sequences", "anchors": ["src/neogb/tools.h: mod_p_inverse_8, mod_p_inverse_16, mod_p_inverse_32"]}
{"id": "C02", "title": "Barrett reduction returns the exact remainder", "statement": "For every prime 2^30 < p < 2^31 with its precomputed inverse floor(2^62/p) and every accumulator value n the routine is specified for, the Barrett reduction returns n mod p; in particular the result is < p and two correction subtractions suffice.", "quantifier": "every p in the range, every 64 bit accumulator in the documented range", "why_tests_cant": "2^30 moduli times 2^62 accumulators; the boundary where a third correction would be needed cannot be hit by sampling", "anchors": ["src/fglm/inner-product.c: MODRED32, ADDMODRED32, mul_mod_barrett", "src/fglm/matrix-mult.c: _MODRED32, MODRED32"]}
{"id": "C03", "title": "Chinese remaindering is correct", "statement": "For every modulus pair (M, p) coprime and every pair of residues, the CRT step returns the unique integer in [0, M*p) congruent to the first residue mod M and to the second mod p (and, in signed mode, the unique representative in the symmetric interval); iterating the step over any list of pairwise coprime primes recovers any integer in range.", "quantifier": "all coprime moduli, all residues, lists of primes of any length", "why_tests_cant": "residues are unbounded integers", "anchors": ["src/crt/mpz_CRT_ui.c: _mpz_CRT_ui_precomp, mpz_CRT_ui"]}
{"id": "C04", "title": "Rational reconstruction is sound and complete", "statement": "Whenever rational reconstruction of a residue a modulo m reports success with n/d, then a*d = n (mod m), |n| <= N, 0 < d <= D and gcd(n,d)=1. Conversely, if 2*N*D < m and some fraction within those bounds with denominator prime to m is congruent to a, the routine reports success and returns exactly that fraction.", "quantifier": "every modulus, residue and bound pair", "why_tests_cant": "unbounded integers; the stopping index in the remainder sequence is input dependent", "anchors": ["src/crt/mpq_reconstruct.c: ratrecon, ratreconwden, mpq_reconstruct_mpz, _mpq_reconstruct_mpz_2"]}
{"id": "C05", "title": "Vector rational reconstruction returns one common denominator for all coefficients", "statement": "When reconstruction of a coefficient vector reports success, the returned integer vector r and denominator L > 0 satisfy r[i] = L * pol[i] (mod m) for every i, each r[i]/L in lowest terms is within the reconstruction bounds.", "quantifier": "vectors of any length, any modulus and residues", "why_tests_cant": "unbounded lengths and integers; the lcm accumulation couples all coefficients", "anchors": ["src/msolve/msolve.c: rational_reconstruction_mpz_ptr, rational_reconstruction_upoly", "src/crt/mpq_reconstruct.c: ratrecon"]}
{"id": "C06", "title": "The primality test never accepts a composite number and next_prime returns a prime", "statement": "For every 32 bit number accepted as prime by the test used to choose moduli, the number is prime; and every prime in the range the solver draws its moduli from is accepted.", "quantifier": "all 32 bit numbers", "why_tests_cant": "2^32 inputs and a wrap-around in the loop bound for large inputs", "anchors": ["src/msolve/primes.c: is_prime, next_prime"]}
{"id": "C07", "title": "The graded reverse lexicographic comparison is an admissible monomial order", "statement": "The monomial comparison used for the default order is a total order on exponent vectors of total degree below 2^16 (the stored degree is a 16 bit number) with equal exact meaning to the textbook definition of DRL, compatible with multiplication, has 1 as smallest element and admits no infinite descending chain.", "quantifier": "all numbers of variables, all exponent vectors, all multipliers", "why_tests_cant": "infinitely many monomials; well-foundedness is not testable", "anchors": ["src/neogb/order.c: monomial_cmp_drl, hcm_cmp_pivots_drl, initial_gens_cmp_drl", "src/neogb/io.c: set_exponent_vector"]}
{"id": "C08", "title": "The block elimination comparison is an admissible order and eliminates the first block", "statement": "The comparison used with -e is, on monomials of total degree below 2^16 (the stored degrees are 16 bit numbers), a total order compatible with multiplication, has 1 as least element, is well founded, and any monomial involving an eliminated variable is larger than every monomial that involves none.", "quantifier": "all numbers of variables, all block sizes, all monomials", "why_tests_cant": "infinitely many monomials", "anchors": ["src/neogb/order.c: monomial_cmp_be, hcm_cmp_pivots_be", "src/neogb/io.c: set_exponent_vector"]}
{"id": "C09", "title": "The lexicographic comparison is an admissible monomial order", "statement": "The lexicographic comparison is a total, multiplicative, well-founded order with 1 as least element and agrees with the textbook definition.", "quantifier": "all numbers of variables, all monomials", "why_tests_cant": "infinitely many monomials", "anchors": ["src/neogb/order.c: monomial_cmp_lex, hcm_cmp_pivots_lex"]}
{"id": "C10", "title": "Divisibility masks never hide a divisor", "statement": "For every configuration of the short divisor mask, if monomial a divides monomial b then the mask test lets the pair pass, hence the combined test (mask, then exponents) answers yes exactly when a divides b componentwise.", "quantifier": "all monomials, all divmask maps, any number of variables and bits per variable", "why_tests_cant": "a wrong threshold only shows on specific exponent combinations", "anchors": ["src/neogb/hash.c: generate_short_divmask, calculate_divmask, check_monomial_division"]}
{"id": "C11", "title": "The monomial hash table stores each monomial once", "statement": "For any sequence of insertions (including those triggering growth) two insertions return the same index if and only if they inserted the same exponent vector, an index once returned always denotes the same monomial, and lookup probes always terminate while the table has a free slot.", "quantifier": "all insertion histories of any length, any hash values including collisions", "why_tests_cant": "needs adversarial collisions and table growth in the middle of histories", "anchors": ["src/neogb/hash.c: insert_in_hash_table, enlarge_hash_table, initialize_basis_hash_table"]}
{"id": "C12", "title": "The hash of a product is the sum of the hashes", "statement": "Inserting the product of a stored monomial and a multiplier using the sum of the stored hash values finds or creates exactly the entry that inserting the product exponent vector would, so cached hash values never cause duplicates.", "quantifier": "all pairs of monomials, all random hash seeds", "why_tests_cant": "hash inconsistencies only manifest with specific overflow patterns", "anchors": ["src/neogb/hash.c: insert_in_hash_table, insert_multiplied_poly_in_hash_table, reinsert_in_hash_table"]}
{"id": "C13", "title": "Least common multiples and coprimality are computed correctly", "statement": "The lcm entry used for critical pairs is the least common multiple of both leading monomials with a consistent degree entry (in each block), and the coprimality test answers yes exactly when the gcd is 1.", "quantifier": "all pairs of exponent vectors, all block layouts", "why_tests_cant": "infinitely many monomials", "anchors": ["src/neogb/hash.c: get_lcm, prime_monomials"]}
{"id": "C14", "title": "Exponent vectors survive import and export", "statement": "Importing a user exponent vector into the internal layout (degree entries, elimination blocks) and exporting it again yields the same vector for every block layout, provided all entries fit the internal 16 bit exponent type; the stored degree entries equal the block degrees.", "quantifier": "any number of variables, any block size, any exponents", "why_tests_cant": "layout arithmetic depends on both parameters; overflow needs large exponents", "anchors": ["src/neogb/io.c: set_exponent_vector, import_input_data, export_data", "src/neogb/hash.c: evl, ebl layout"]}
{"id": "C15", "title": "No valid generator is lost by input validation", "statement": "Every generator without zero coefficients passed to the library entry point takes part in the computation, whatever invalid (zero coefficient) generators surround it.", "quantifier": "all generator lists of any length with any pattern of invalid entries", "why_tests_cant": "the failure depends on the positions of invalid generators", "anchors": ["src/neogb/io.c: validate_input_data, check_and_set_meta_data, import_input_data"]}
{"id": "C16", "title": "Finite field coefficients are imported as canonical residues", "statement": "Every input coefficient c of a generator over a prime field is stored as the canonical residue of c modulo the characteristic.", "quantifier": "all characteristics, all 32 bit coefficients", "why_tests_cant": "negative coefficients of large magnitude are rarely sampled", "anchors": ["src/neogb/io.c: import_input_data"]}
{"id": "C17", "title": "The coefficient representation selected for a characteristic can hold every residue", "statement": "For every accepted field characteristic the chosen coefficient width can represent all residues 0..p-1.", "quantifier": "all accepted 32 bit characteristics", "why_tests_cant": "boundary behaviour at 2^8, 2^16, 2^31", "anchors": ["src/neogb/io.c: set_ff_bits, check_ff_bits, validate_input_data"]}
{"id": "C18", "title": "Term sorting permutes terms without changing the polynomial", "statement": "Sorting the terms of an imported polynomial yields the same multiset of (coefficient, monomial) pairs in decreasing monomial order.", "quantifier": "polynomials of any length", "why_tests_cant": "all permutations of unbounded lists", "anchors": ["src/neogb/io.c: sort_terms_ff_8, sort_terms_ff_16, sort_terms_ff_32, sort_terms_qq"]}
{"id": "C19", "title": "Row reduction modulo a prime is exact", "statement": "Reducing a matrix row by known pivots with delayed modular reduction returns a row congruent to the input row minus a combination of pivot rows, with zeros in all pivot columns, residues in [0,p), and every intermediate 64 bit accumulator within range.", "quantifier": "all rows, all pivot sets, all primes below 2^31, any number of columns", "why_tests_cant": "accumulators overflow only on adversarial long reductions", "anchors": ["src/neogb/la_ff_32.c: reduce_dense_row_by_known_pivots_sparse_31_bit, reduce_dense_row_by_known_pivots_sparse_17_bit"]}
{"id": "C20", "title": "Normalised rows are monic and proportional to the input", "statement": "Normalising a row over a prime field yields leading coefficient 1 and a row proportional to the input by a unit.", "quantifier": "all rows with non-zero leading coefficient, all primes", "why_tests_cant": "unbounded inputs", "anchors": ["src/neogb/la_ff_32.c: normalize_sparse_matrix_row_ff_32, normalize_dense_matrix_row_ff_32"]}
{"id": "C21", "title": "Hash to column conversion is an order preserving bijection", "statement": "Matrix columns are numbered so that pivot monomials come first, within each class columns are in decreasing monomial order, distinct monomials have distinct columns and converting back returns the original monomials.", "quantifier": "all sets of monomials", "why_tests_cant": "unbounded sets", "anchors": ["src/neogb/convert.c: convert_hashes_to_columns, convert_columns_to_hashes"]}
{"id": "C22", "title": "Removing redundant basis elements keeps exactly a minimal generating set of the leading ideal", "statement": "After the final redundancy pass, no kept leading monomial divides another kept one, and every leading monomial of the basis is divisible by a kept one.", "quantifier": "all finite sequences of leading monomials", "why_tests_cant": "unbounded sequences", "anchors": ["src/neogb/f4.c: final_remove_redundant_elements, process_redundant_elements", "src/neogb/update.c: update_basis_f4"]}
{"id": "C23", "title": "The zero-dimensionality test is exact on minimal bases", "statement": "For the leading monomials of a reduced Groebner basis the test answers yes iff only finitely many monomials are irreducible.", "quantifier": "any number of variables and generators", "why_tests_cant": "finiteness of an infinite set is not testable", "anchors": ["src/msolve/hilbert.c: is_pure_power, has_dimension_zero"]}
{"id": "C24", "title": "The quotient monomial basis is complete and duplicate free", "statement": "For every zero-dimensional leading ideal, the computed monomial basis lists each irreducible monomial exactly once, in increasing DRL order, and its reported size is the dimension of the quotient.", "quantifier": "all zero-dimensional monomial ideals, any number of variables", "why_tests_cant": "the index bookkeeping between degrees fails only on special staircases", "anchors": ["src/msolve/hilbert.c: monomial_basis, generate_new_elts_basis, update_indices"]}
{"id": "C25", "title": "Berlekamp-Massey style reconstruction returns an annihilating polynomial of minimal degree", "statement": "For every sequence of 2D field elements generated by a linear recurrence of order at most D, the half-gcd routine returns, up to a unit, the minimal polynomial of the sequence; for every sequence the invariant U*x^n + V*S = R with the degree bounds holds.", "quantifier": "all finite fields, sequences of any length", "why_tests_cant": "unbounded degrees", "anchors": ["src/fglm/berlekamp_massey.c: nmod_berlekamp_massey_reduce_modif, nmod_em_gcd"]}
{"id": "C26", "title": "Polynomial evaluation at dyadic points is exact", "statement": "Evaluating at c/2^k (and at 1/2) returns the exact integer 2^(k*deg) * p(c/2^k), so its sign is the sign of p there.", "quantifier": "all integer polynomials, all dyadic points", "why_tests_cant": "unbounded coefficients and degrees", "anchors": ["src/usolve/evaluate.c: mpz_poly_eval_2exp_naive, mpz_upoly_eval_onehalf, basic_mpz_poly_eval_at_point", "src/usolve/usolve.c: sgn_mpz_upoly_eval_onehalf"]}
{"id": "C27", "title": "Taylor shift computes p(x+1), whichever algorithm is used", "statement": "The naive and the divide-and-conquer Taylor shift both turn the coefficient vector of p into that of p(x+1), for every degree, block count and block size.", "quantifier": "all polynomials, all block layouts", "why_tests_cant": "block remainders depend on degree and thread count", "anchors": ["src/usolve/taylor_shift.c: taylorshift1_naive, taylorshift1_dac"]}
{"id": "C28", "title": "Rescaling and binary content removal keep the roots", "statement": "Rescaling by 2^b followed by removal of the power-of-two content maps roots exactly by x -> x/2^b, keeps signs, and is undone by rescaling with -b up to a positive factor.", "quantifier": "all polynomials, all exponents b", "why_tests_cant": "unbounded", "anchors": ["src/usolve/utils.c: mpz_poly_remove_binary_content, USOLVEmpz_poly_rescale_normalize_2exp_th"]}
{"id": "C29", "title": "Division by a known dyadic root is exact", "statement": "Dividing out a dyadic root r=c/2^k returns an integer polynomial q of degree one less with p = positive constant * (x - r) * q; all other roots are kept with multiplicity.", "quantifier": "all polynomials with a dyadic root", "why_tests_cant": "unbounded; the intermediate shifts must be exact", "anchors": ["src/usolve/utils.c: USOLVEnumer_quotient", "src/usolve/usolve.c: numer_quotient_uint, manage_root_at_one_half"]}
{"id": "C30", "title": "The root bound is strict", "statement": "If the root bound routine returns M for a polynomial then every positive real root is strictly smaller than 2^M; if it returns the no-root code there is no positive real root.", "quantifier": "all integer polynomials with non-zero leading coefficient", "why_tests_cant": "real roots of arbitrary polynomials", "anchors": ["src/usolve/usolve.c: bound_roots"]}
{"id": "C31", "title": "Sign variation counts, including the truncated ones, are certified", "statement": "The variation counter returns the exact number of coefficient sign changes when it is below 3 and otherwise at least 3 changes really occur; when the truncated Taylor shift path reports a certified count it equals what the exact path would report.", "quantifier": "all polynomials, all truncation positions", "why_tests_cant": "rounding errors only matter on near-cancelling coefficients", "anchors": ["src/usolve/descartes.c: mpz_poly_sgn_variations_coeffs, descartes, descartes_truncate", "src/usolve/taylor_shift.c: mpz_poly_sgn_variations_coeffs_bsize_with_index, taylorshift1_dac_wsgnvar", "src/usolve/utils.c: USOLVEmpz_poly_sgn_variations_coeffs_bsize"]}
{"id": "C32", "title": "Real root isolation is correct", "statement": "For every square-free integer polynomial on which the isolation returns, the returned intervals are pairwise disjoint and sorted, every exact entry is a root, every open interval contains exactly one real root and every real root is represented exactly once.", "quantifier": "all square-free polynomials of any degree", "why_tests_cant": "roots of arbitrary polynomials, arbitrarily deep bisection trees", "anchors": ["src/usolve/usolve.c: bisection_rec, bisection_Uspensky, real_roots, merge_root, nb_0_case, nb_1_case, nb_default_case"]}
{"id": "C33", "title": "Root merging maps bisection cells to the right interval", "statement": "A cell (c,k) of the scaled unit interval recorded for scale 2^b denotes exactly the interval (c/2^k, (c+1)/2^k)*2^b, or its mirror image for negative roots, independently of whether k<b.", "quantifier": "all cells, scales and signs", "why_tests_cant": "exponent bookkeeping with sign cases", "anchors": ["src/usolve/usolve.c: merge_root"]}
{"id": "C34", "title": "Root refinement never loses the root and reaches the requested precision", "statement": "Starting from an isolating interval with a sign change, every refinement step returns a sub-interval of the old one that still has a sign change (or an exact root), the width strictly decreases whenever the step succeeds, and the loop ends with width at most 2^-prec.", "quantifier": "all polynomials, isolating intervals and precisions", "why_tests_cant": "the linear interpolation guess may land anywhere; unbounded precision", "anchors": ["src/usolve/refine.c: refine_root_by_N_positive_k, refine_root_by_N_negative_k, refine_QIR_positive_root, index_linearinterp"]}
{"id": "C35", "title": "Interval evaluation encloses the true values", "statement": "The interval evaluation of a polynomial on [a/2^k,b/2^k] (both ends of the same sign) returns bounds enclosing 2^(k*deg)*p(x) for every x in the interval, so a reported constant sign is really constant.", "quantifier": "all polynomials, all intervals", "why_tests_cant": "requires a polynomial whose Horner intermediates straddle zero", "anchors": ["src/usolve/evaluate.c: mpz_poly_eval_interval", "src/msolve/msolve.c: newvalue_denom, value_denom"]}
{"id": "C36", "title": "Power tables and scalar products enclose the true values", "statement": "The table of power intervals and the scalar product computed from it enclose, at the working precision, the value of every polynomial at every point of the isolating interval.", "quantifier": "all polynomials, all isolating intervals, all precisions", "why_tests_cant": "real quantification and rounding", "anchors": ["src/msolve/msolve.c: generate_table_values_full", "src/usolve/evaluate.c: mpz_scalar_product_interval"]}
{"id": "C37", "title": "Coordinate boxes contain the coordinate of the solution", "statement": "Given enclosures of numerator and denominator with the denominator of constant sign, the directed rounding division returns a box that contains -num/(cf*den); for exact roots the box has width at most one unit and contains the exact value.", "quantifier": "all sign combinations, all integer enclosures and precisions", "why_tests_cant": "six sign cases with directed rounding, unbounded integers", "anchors": ["src/msolve/msolve.c: lazy_single_real_root_param, single_exact_real_root_param"]}
{"id": "C38", "title": "Normalising a printed point does not change it", "statement": "Removing common powers of two from the stored numerators and exponents leaves every coordinate bound of a real point unchanged and in lowest terms, and the text printed for a bound denotes its value.", "quantifier": "all points", "why_tests_cant": "unbounded integers", "anchors": ["src/msolve/msolve.c: normalize_points, display_real_point"]}
{"id": "C39", "title": "Undoing a variable order change restores the input order", "statement": "Changing the variable order of the input system and undoing it restores names and exponents, and the permuted system has the same solutions up to the permutation.", "quantifier": "all systems, all swap positions", "why_tests_cant": "any number of variables", "anchors": ["src/msolve/msolve.c: change_variable_order_in_input_system, undo_variable_order_change"]}
{"id": "C40", "title": "The modular check accepts a lifted parametrisation only if it reduces to the modular one", "statement": "If the check of a lifted polynomial with denominator against the modular image for a new prime succeeds, the lifted polynomial divided by its leading coefficient is congruent to the modular polynomial, and if it is congruent the check succeeds.", "quantifier": "all polynomials and primes", "why_tests_cant": "unbounded", "anchors": ["src/msolve/msolve.c: check_unit_mpz_nmod_poly, check_param_modular"]}
{"id": "C41", "title": "Integer content removal is exact", "statement": "Removing the content over the rationals keeps each polynomial (with nonzero leading coefficient) up to a nonzero integer factor, makes its coefficients coprime and its leading coefficient positive, which determines the result.", "quantifier": "all integer polynomials", "why_tests_cant": "unbounded", "anchors": ["src/neogb/basis.c: remove_content_of_initial_basis", "src/usolve/utils.c: USOLVEmpz_get_content, USOLVEmpz_remove_content"]}
{"id": "C42", "title": "Parsing a finite-field input line yields the polynomial that was written", "statement": "Every term of an input line over a prime field is read with the coefficient and exponents that were written, and printing a basis element and reading it back returns the same polynomial.", "quantifier": "all polynomials, all variable names, all coefficients", "why_tests_cant": "literal zero coefficients and omitted coefficients are special cased", "anchors": ["src/msolve/iofiles.c: get_number_of_terms, get_term, store_exponent, get_coefficient_ff_and_term_from_line, print_msolve_polynomials_ff"]}
{"id": "C43", "title": "Critical pair selection takes every pair of minimal degree", "statement": "In each round only pairs of minimal degree are selected and removed: all of them if there are at most as many as the selection cap (the default is no cap), otherwise at least as many as the cap; the selected and the remaining pairs together are the pairs before, so no pair is dropped or processed twice.", "quantifier": "all pair sets, with and without a selection cap", "why_tests_cant": "the cap interacts with ties", "anchors": ["src/neogb/symbol.c: select_spairs_by_minimal_degree"]}
{"id": "C44", "title": "The F4 loop ends with a Groebner basis", "statement": "The main loop always ends, and when it ends the leading monomial of every element of the input ideal is divisible by a leading monomial of the basis, and the basis generates the input ideal; the final reduction then returns the reduced Groebner basis.", "quantifier": "all input systems, all pair selections", "why_tests_cant": "ideal membership over infinite sets", "anchors": ["src/neogb/f4.c: core_f4", "src/neogb/update.c: insert_and_update_spairs, update_basis_f4"]}
{"id": "C45", "title": "Variables are linked to their linear forms", "statement": "The routine collecting linear basis elements stores, for each linear form, its coefficients at the positions of its variables, one row per form.", "quantifier": "all reduced bases", "why_tests_cant": "only with several linear forms of different support sizes", "anchors": ["src/msolve/linear.c: check_and_set_linear_poly_32, set_linear_poly_32", "src/msolve/msolve.c: check_and_set_linear_poly_non_hashed"]}
{"id": "C46", "title": "Dense modular products are exact", "statement": "The matrix vector product used by the change-of-order step returns the exact residues of the product for every matrix and vector with entries below the prime, with no accumulator overflow.", "quantifier": "all dimensions, all entries, all primes below 2^31", "why_tests_cant": "accumulator overflow depends on long adversarial rows", "anchors": ["src/fglm/inner-product.c: non_avx_matrix_vector_product", "src/fglm/matrix-mult.c: _mod_mat_addmul_transpose_op"]}
{"id": "C47", "title": "The parallel echelon form is correct and independent of the thread schedule", "statement": "For every matrix and every interleaving of the worker threads the exact sparse echelon form terminates without undefined behaviour, its interreduced rows are a reduced row echelon form spanning, together with the known pivots, the same space as the input, and the result is the same for every interleaving.", "quantifier": "all matrices over prime fields below 2^31, any number of rows and threads, all interleavings", "why_tests_cant": "schedules cannot be enumerated by tests", "anchors": ["src/neogb/la_ff_32.c: exact_sparse_reduced_echelon_form_ff_32, interreduce_matrix_rows_ff_32"]}
{"id": "C48", "title": "The candidate array of the monomial basis computation never overflows", "statement": "While the monomial basis of a quotient is enumerated degree by degree, every candidate row is written inside the array of sum(ind)+nvars rows that was allocated for that degree.", "quantifier": "all sets of leading monomials, any number of variables, any number of turns", "why_tests_cant": "needs staircases whose widest degree is much larger than the previous ones", "anchors": ["src/msolve/hilbert.c: monomial_basis, generate_new_elts_basis, sum"]}
{"id": "C49", "title": "Root isolation never overflows its arrays", "statement": "The isolation records at most deg roots in total, and at most deg positive and deg negative ones, so that the two arrays allocated with deg entries never overflow.", "quantifier": "all integer polynomials of degree >= 1 on which the isolation returns", "why_tests_cant": "the number of recorded intervals depends on the bisection tree", "anchors": ["src/usolve/usolve.c: bisection_Uspensky (allocation of pos_roots, neg_roots), bisection_rec"]}
{"id": "C50", "title": "Root isolation terminates on square-free polynomials", "statement": "For every square-free integer polynomial of degree >= 1 isolation and refinement end with a regular result: no exit, no endless loop, no read outside the arrays.", "quantifier": "all square-free integer polynomials", "why_tests_cant": "the depth of the bisection depends on the distance of the complex roots", "anchors": ["src/usolve/usolve.c: bisection_rec, bisection_Uspensky, real_roots"]}
{"id": "C51", "title": "The result of F4 does not depend on scheduling and options", "statement": "Two runs of F4 modulo the same prime for the same monomial order, with generators of the same ideal in any order, return the same list of polynomials with the same coefficients in the same order, whatever the selection cap, the order of equal pairs in the unstable sorts, the order of rows, and the linear algebra variant.", "quantifier": "all input systems generating the same ideal, all configurations, all choices", "why_tests_cant": "the space of schedules is infinite and results of single runs say nothing about others", "anchors": ["src/neogb/f4.c: core_f4, reduce_final_basis", "src/neogb/symbol.c: select_spairs_by_minimal_degree"]}
{"id": "C52", "title": "Hankel systems of the shape-position branch are solved exactly or reported", "statement": "invert_hankel and solve_hankel: for the first terms of a linearly recurrent sequence the Hankel matrix of size d is reported singular exactly if it is; in the regular case with nonzero last entry of the inverse's first column the vector returned by solve_hankel is the only solution of the Hankel system.", "quantifier": "all fields, all sequences, all sizes d, all right-hand sides", "why_tests_cant": "Tests only see random generic sequences; singular, near-singular and boundary shapes (zero first term, size one) need special data", "anchors": ["src/fglm/fglm_core.c:154", "src/fglm/fglm_core.c:212", "src/fglm/fglm_core.c:425"]}
{"id": "C53", "title": "The rational parametrization computed from the multiplication matrix is correct", "statement": "If the square-free part of the minimal polynomial of the random scalar sequence has degree the dimension, the parametrization returned by the FGLM step is correct in the quotient algebra for every random vector: the eliminating polynomial is square-free and is the minimal polynomial of the last variable, and each other variable equals minus its coordinate polynomial at the last variable. Outside shape position the coordinate is the unique polynomial determined by the linear form, correct whenever the variable is a polynomial in the last one up to nilpotents killed by the cofactor; the verification with the squares accepts exactly when the squared relation holds for the linear form.", "quantifier": "all fields, finite-dimensional algebras, reduced bases, random vectors", "why_tests_cant": "Correctness must hold for every random vector and every ideal; a wrong coordinate is a plausible polynomial of the right degree", "anchors": ["src/fglm/fglm_core.c:1045", "src/fglm/fglm_core.c:1117", "src/fglm/fglm_core.c:1158", "src/fglm/fglm_core.c:1228", "src/fglm/fglm_core.c:959"]}
{"id": "C54", "title": "The real points returned are the real solutions, each once, in a box that holds it", "statement": "For a parametrization with a square-free eliminating polynomial the computation of the real points ends, returns one point for each real root in increasing order, the last coordinates isolate the roots, and each box contains all coordinates of its solution.", "quantifier": "all parametrizations, all precisions", "why_tests_cant": "needs close roots or denominators whose Horner intermediates straddle zero at the working precision", "anchors": ["src/msolve/msolve.c: isolate_real_roots_param, extract_real_roots_param, lazy_single_real_root_param, newvalue_denom"]}
{"id": "C55", "title": "Normalising a modular image keeps its points", "statement": "Bringing a modular parametrization to the denominator elim'/deg(elim) (64-bit products) keeps every point: each coordinate is -c'(x)/denom(x) afterwards, and the denominator is invertible at every solution.", "quantifier": "all images over all primes below 2^32, in every algebra", "why_tests_cant": "points over extensions of the prime field cannot be enumerated", "anchors": ["src/msolve/msolve.c: normalize_nmod_param"]}
{"id": "C56", "title": "A parametrization is returned only after confirmation by an independent prime", "statement": "Whatever the rational reconstruction computes, the multi-modular loop ends only when the check of the current parametrization succeeded for the image modulo a prime that was not used to reconstruct it, and the parametrization has not changed since.", "quantifier": "all sequences of images, bad primes, numbers of threads, schedules of reconstructions", "why_tests_cant": "depends on the interleaving of failed checks, bad primes and threads", "anchors": ["src/msolve/msolve.c: msolve_trace_qq (while loop)"]}
{"id": "C57", "title": "The linear form printed with a parametrization is the one that was used", "statement": "The variable names and the linear form printed with a rational parametrization describe the system that was solved: the printed form is, up to a common factor, the one that was added, and the new variable has a name of its own.", "quantifier": "all systems, all sequences of failed attempts, all random draws", "why_tests_cant": "depends on the sequence of failed attempts and on random choices", "anchors": ["src/msolve/msolve.c: mpz_param_out_str, add_linear_form_to_input_system, add_random_linear_form_to_input_system, core_msolve"]}
{"id": "C58", "title": "Reading an input file yields the names, the characteristic and the polynomials written", "statement": "Reading a file with the variable names on the first line, the characteristic on the second one and one polynomial per line, with commas at the ends of all but the last line, returns exactly these names, this characteristic and these polynomials, over prime fields and over the rationals; a file with another number of polynomials than lines is not read correctly; a file made of printed basis elements is read as these elements.", "quantifier": "all names, characteristics, polynomials and placements of white space", "why_tests_cant": "the number of polynomials is counted in lines and the polynomials are cut at commas; the agreement holds only for certain layouts", "anchors": ["src/msolve/iofiles.c: get_nvars, get_ngenerators, get_variable_name, get_characteristic, get_nterms_and_all_nterms, get_coeffs_and_exponents_ff32, get_coeffs_and_exponents_mpz, get_data_from_file"]}
{"id": "C59", "title": "Normal forms are normal forms, unique, and zero exactly for ideal members", "statement": "export_nf / core_nf over a prime field: for every basis and every list of polynomials to be reduced, the computation ends without undefined behaviour; the i-th result differs from the i-th input by an element of the ideal generated by the basis, has no monomial divisible by a leading monomial of the basis, and is stored with strictly decreasing monomials and reduced nonzero coefficients. If the basis is a Groebner basis, two inputs give the same result exactly if they are congruent modulo the ideal, also when different Groebner bases of the ideal, thread counts, elimination variants or orders of the inputs are used; the result is zero exactly for members of the ideal.", "quantifier": "all monomial orders of the library, all primes below 2^31, all bases of monic polynomials, all lists of polynomials, all outcomes of the sorts, both elimination variants", "why_tests_cant": "Tests compare a few normal forms with known ones; termination of the symbolic preprocessing, uniqueness and the equivalence with ideal membership concern all inputs.", "anchors": ["src/neogb/nf.c:55-224", "src/neogb/symbol.c:449-640", "src/neogb/la_ff_32.c:2588-2700", "src/neogb/convert.c:552-630"]}
{"id": "C60", "title": "The multiplication matrix represents multiplication by the variable in the quotient", "statement": "build_matrixn_unstable_from_bs_trace, given the reduced Groebner basis of a zero-dimensional ideal and its monomial basis: no array is accessed outside its bounds or before it is set; NULL is returned exactly if more normal forms are needed than the chosen level of the genericity handling allows; otherwise the trivial and dense rows together are a permutation of the monomial basis, every row is the product of its monomial with the variable modulo the ideal, dense rows have reduced coefficients, and the stored number of trailing zeros is exact. The residue classes of the monomial basis are a basis of the quotient, and the product of the stored matrix with the values of a linear form are the values of the form at the products with the variable.", "quantifier": "all primes below 2^31 (the product: up to 1518500249), all numbers of variables, all ideals with a finite staircase, all levels of genericity, all outcomes of the computation of normal forms", "why_tests_cant": "A wrong row shows up only in the solutions; the rows taken from the basis, from the staircase and from normal forms are separated by index arithmetic over three sorted lists that depends on the shape of the staircase.", "anchors": ["src/msolve/hilbert.c:3471-3883", "src/msolve/hilbert.c:306-420"]}
{"id": "C61", "title": "A modular computation returns a description of the ideal of the generators", "statement": "The modular computation for one prime, from the generators to the parametrization: F4, monomial basis, multiplication matrix with normal forms, scalar sequence for a random vector, its minimal polynomial, parametrization. If the square-free part of the minimal polynomial has degree the number of monomials in the monomial basis, then a returned parametrization w, c_1, ..., c_(n-1) is one of the input: the ideal of the generators is the ideal of w(x_n) and x_k + c_k(x_n), w is monic, square-free and of degree the dimension of the quotient, and in every extension field the solutions of the generators are the points with w(x_n) = 0 and x_k = -c_k(x_n).", "quantifier": "all primes below 2^31, all generators, all orders of pairs and rows, all thread schedules of the elimination, all random vectors, all extension fields", "why_tests_cant": "The random vector and the choices of the sorts and threads change every intermediate object; the claim relates the input generators and the output for all of them.", "anchors": ["src/msolve/msolve.c:1545-1660", "src/neogb/f4.c", "src/msolve/hilbert.c:61-305", "src/msolve/hilbert.c:3471-3883", "src/fglm/fglm_core.c:1470-1700"]}
{"id": "C62", "title": "A Groebner basis over Q is returned only after confirmation", "statement": "When the multi-modular loop of core_groebner_qq ends, every returned polynomial lm*m + sum of qn_l*m_l has a positive leading coefficient, agrees with the modular Groebner bases of all primes it was lifted from (at least one) and agrees, after division by the leading coefficient, with the modular basis of a later prime that was not used for it. A returned coefficient differs from the fraction behind the images only if the product of the primes used is at most |qn*b - a*lm|. No execution stops with an error, and the computation restarts only before any image was used.", "quantifier": "all numbers and lengths of polynomials, all sequences of distinct primes below 2^32 with arbitrary images, reported bad primes and timings", "why_tests_cant": "Whether the check variables, start indices, denominators and moduli stay consistent over all interleavings of failed and successful reconstructions is an invariant of an unbounded loop; a test sees the few primes of its inputs.", "anchors": ["src/msolve/lifting-gb.c:97-136", "src/msolve/lifting-gb.c:798-1118", "src/msolve/lifting-gb.c:1241-1472"]}
{"id": "C63", "title": "The modular bases are stored without loss", "statement": "With an elimination block, the elements of the modular basis that are kept (those counted by compute_num_gb in the learning phase, those filtered by the degree in the block later) are, without the block variables, the reduced Groebner basis of the elimination ideal for the degree reverse lexicographical order. For every later prime: with the same leading monomials each element is its leading monomial plus the sum of the stored coefficients times the monomials of the slots, no term is lost and no access leaves the arrays; with other leading monomials the prime is reported as bad; with another number of elements nothing is stored.", "quantifier": "all numbers of variables, block sizes, ideals, primes and reduced bases with a non empty elimination part without constant", "why_tests_cant": "That every term of every basis with given leading monomials has a slot below the position where the search starts depends on the order of all monomials of the staircase, for all bases modulo all primes.", "anchors": ["src/msolve/hilbert.c:1296-1398", "src/msolve/hilbert.c:3964-3978", "src/msolve/lifting-gb.c:440-554", "src/msolve/lifting-gb.c:588-600", "src/msolve/lifting-gb.c:747-789"]}
{"id": "C64", "title": "The returned Groebner basis over Q reduces to the modular bases", "statement": "When the lifting ends, the export writes for every index a polynomial with integer coefficients, positive leading coefficient a, no zero coefficient, no variable of the block. Modulo every prime it was lifted from (at least one) it is a times the element with the same leading monomial of the reduced Groebner basis of the elimination ideal; the same modulo a later prime, unless a vanishes there and the element is a monomial. The terms behind the first are strictly decreasing, and smaller than the first unless their coefficient is divisible by all primes used. The lengths returned are those of the polynomials and no write leaves the arrays.", "quantifier": "all numbers of variables, block sizes, sequences of distinct primes with reduced bases or failures, all timings", "why_tests_cant": "Composes storage, loop and export over unboundedly many primes and polynomials; a test compares one result with one known basis.", "anchors": ["src/msolve/lifting-gb.c:440-554", "src/msolve/lifting-gb.c:588-789", "src/msolve/lifting-gb.c:1241-1472", "src/msolve/lifting-gb.c:1503-1580"]}
{"id": "C65", "title": "The lifted parametrization reduces to the modular ones", "statement": "When the multi-modular loop ends, the eliminating polynomial and the coordinates it returns, read as the parametrization (elim / lc(elim), coordinate i / (lc(elim) nsols cfs[i])), agree modulo all primes up to the one where elim was lifted with the images computed for these primes, and modulo a further prime not used for it (unless this prime divides nsols or cfs[i]); all factors cfs[i] are positive and lc(elim) is not zero. If the images are the reductions of a parametrization over the rationals, every returned coefficient is exact as soon as a difference of products of numerators and denominators is smaller than the product of the primes.", "quantifier": "all numbers of solutions and coordinates, all sequences of distinct primes with images or failures, all timings (whether a reconstruction is attempted in a round)", "why_tests_cant": "The reconstruction keeps witness coefficients, guessed denominators, start indices and bounds from one prime to the next; a test sees one such history, and a wrong lift passes every test whose primes were enough.", "anchors": ["src/msolve/msolve.c:776-806", "src/msolve/msolve.c:947-1000", "src/msolve/msolve.c:1063-1135", "src/msolve/msolve.c:1172-1395", "src/msolve/msolve.c:1451-1490", "src/msolve/msolve.c:2160-2250", "src/msolve/msolve.c:2395-2480", "src/msolve/lifting.c:405-440", "src/msolve/lifting.c:532-704"]}
{"id": "C66", "title": "Bases computed with the trace of a first prime", "statement": "The run modulo the first prime returns the reduced Groebner basis and a trace. Applied modulo another prime for which the input polynomials have the same leading monomials, the trace always leads to an end, with a basis or with the prime rejected. An accepted basis lies in the ideal, is monic, has the leading monomials of the first basis in the same order, and no other term of it is divisible by one of them; it is the reduced Groebner basis of the ideal modulo the new prime if and only if the two ideals have the same initial monomials. Modulo the first prime itself every application returns the first basis, whatever the schedules of the threads. For homogeneous input with integer coefficients and a first prime with the initial monomials of the rationals, every accepted basis is the reduced Groebner basis modulo its prime, and has the initial monomials of the rationals.", "quantifier": "all numbers of variables, monomial orders, lists of monic polynomials with the same leading monomials modulo two primes, all selections and all schedules of the linear algebra in both runs", "why_tests_cant": "The trace drops rows and reducers that were useless modulo one prime; that nothing is missing modulo another one is a statement about all inputs and primes, and a run that was accepted by accident looks like any other.", "anchors": ["src/neogb/tools.c:41-152", "src/neogb/tools.c:184-200", "src/neogb/f4.c:413-562", "src/neogb/f4.c:690-720", "src/neogb/la_ff_32.c:360-369", "src/neogb/la_ff_32.c:2588-2763", "src/neogb/symbol.c:632-703", "src/neogb/modular.c:44-63", "src/neogb/basis.c:377-455"]}
{"id": "C67", "title": "Rejected primes are skipped in batches of primes", "statement": "When the parametrization over the rationals is computed from batches of primes, one prime for each thread, then after each batch a prime is marked as bad exactly if there is no image for it (rejected by F4 with the trace, or a later step failed), the images of the other primes are stored, and no null pointer is used, in this batch and in all following ones, whatever the schedule of the threads.", "quantifier": "all numbers of threads, all sequences of batches, all outcomes for the primes, all interleavings of the threads", "why_tests_cant": "Rejected primes are rare and cannot be provoked with the default primes; the interleavings that go wrong need two threads to be at certain lines at the same time.", "anchors": ["src/msolve/msolve.c:1664-1807", "src/msolve/msolve.c:2258-2430", "src/neogb/f4.c:667-733", "src/neogb/f4.c:431-460", "src/fglm/fglm_core.c:1712-1747", "src/fglm/data_fglm.c:217-225"]}
{"id": "C68", "title": "The probabilistic linear algebra never invents rows and rarely loses some", "statement": "With -l 44 (and for the kernels of the saturation) the new rows are computed from random combinations of blocks of rows. Whatever random numbers are drawn and however the threads are interleaved: there is no undefined behaviour, the computation ends, the new rows are a reduced echelon form of a subspace of the row space (nothing outside of the input is ever added). A block has a row outside of the result only if the last random vector drawn for it hit a set that contains at most one in 2^15 of all vectors of multipliers. If nothing is lost, the result is the one of the exact linear algebra (-l 2).", "quantifier": "all primes in [2^15, 2^31), all matrices, all random numbers, all interleavings of any number of threads", "why_tests_cant": "The failure has probability about 2^-15 for each block and depends on rand and on the schedule; a test run sees one draw.", "anchors": ["src/neogb/la_ff_32.c:2299-2499", "src/neogb/la_ff_32.c:3894-3924", "src/msolve/main.c:432-438", "src/neogb/io.c:698-702"]}
{"id": "C69", "title": "F4 with saturation returns the saturation", "statement": "With -S and an element f as last polynomial, the Groebner basis computation with saturation returns the reduced Groebner basis of I : f^infinity. Each kernel computed on a basis without pairs gives exactly the combinations of standard monomials up to the current degree which multiply f into the ideal, the test for saturation says yes only if the ideal is saturated, and the computation ends.", "quantifier": "all primes in (2^16, 2^31), all generators and all f, the degree reverse lexicographic order, all random numbers drawn and all schedules of the threads in the probabilistic linear algebra", "why_tests_cant": "Whether the result is saturated depends on which degrees the loop visits, on the kernel computation with draws of rand and on a test which uses un-normalised elements; a test run checks one ideal.", "anchors": ["src/neogb/f4sat.c:35-768", "src/neogb/la_ff_32.c:2765-3010"]}
{"id": "C70", "title": "The printed rational Groebner basis determines the basis", "statement": "Over the rationals, the list printed with -g 2 (or the leading monomials with -g 1) is text of the input grammar: put behind a line with the names of the variables that are left and a line with characteristic 0, msolve reads it back as exactly the terms of the lifted polynomials, with all coefficients and exponents, and the elimination block is omitted consistently.", "quantifier": "all variable names admitted by the parser, all sizes of the elimination block, all numbers of polynomials, all integer coefficients and exponents below 2^31 with terms that fit the buffer of the parser, every state in which the lifting ends", "why_tests_cant": "The printer treats coefficient one, signs, denominators, vanishing terms, exponent one and the constant term by separate cases; tests compare a few outputs with stored files.", "anchors": ["src/msolve/lifting-gb.c:277-374", "src/msolve/iofiles.c:67-121"]}
{"id": "C71", "title": "The printed solutions determine the result", "statement": "The text written for a system is a nested list of numbers and quoted names that a simple reader understands: [-1] if there is no solution, [1, nvars, -1, []] in positive dimension, and otherwise [0, ...] with the parametrization (if -P is 1 or 2, or in positive characteristic) and the boxes of the real solutions (-P 0 or 1, characteristic zero). Reading gives exactly the data: characteristic, number of variables, degree, names, linear form, polynomials with degrees and all coefficients, denominators, and the rational bounds of every box. Equal texts come from equal data.", "quantifier": "all values of dimension, degree of the quotient and -P, all numbers of variables and solutions, all polynomials including the zero polynomial, all bounds and exponents, names without quotes", "why_tests_cant": "The brackets, commas and line breaks are spread over six functions with cases for empty lists, last entries, zero polynomials, exponents 0 and 1 and the options; a test compares the text for some systems only.", "anchors": ["src/msolve/msolve.c:81-95", "src/msolve/msolve.c:122-228", "src/msolve/msolve.c:2591-2652", "src/msolve/msolve.c:3447-3510", "src/fglm/fglm_core.c:102-116"]}
{"id": "C72", "title": "The dense variants of the linear algebra give the same rows", "statement": "With option 1 (-l 1) the linear algebra over a prime field, run with any interleaving of its threads, has no undefined behaviour, terminates within a bounded number of steps, and gives a reduced echelon form of the input: monic sparse rows, zero in all other pivot columns, spanning together with the known pivots exactly the space of the input. The rows are the ones of the default variant (option 2), entry by entry. With option 42 (random combinations, dense new pivots) the rows always lie in the space of the input and have the shape of a reduced echelon form; a row of the input is lost only if a block ended with a draw whose combination lies in the space found so far (at most one in p of the draws), and if no row is lost the rows are the ones of the exact variant.", "quantifier": "all primes below 2^31 (lazy reduction: below 2^18 and fewer than 2^27 - 1 columns), all matrices, all numbers of rows and threads, all interleavings, all random numbers", "why_tests_cant": "The threads race for the columns; whether a lost race is repaired from the right column, whether entries that are p instead of 0 do harm and whether both variants agree depends on the interleaving and on the values.", "anchors": ["src/neogb/la_ff_32.c:1821-2016", "src/neogb/la_ff_32.c:2028-2279", "src/neogb/la_ff_32.c:3271-3500", "src/neogb/la_ff_32.c:3678-3886", "src/neogb/la_ff_32.c:4105-4150"]}
{"id": "C73", "title": "From the input file to the printed Groebner basis", "statement": "For an input file over a prime field whose polynomials are expanded (no coefficient divisible by the characteristic, no repeated monomial, degrees below 2^16), msolve -g 2 -e k prints comment lines (characteristic, variables, order, number of elements) and then exactly the reduced Groebner basis of the ideal generated by the polynomials in the file: for the degree reverse lexicographical order or the order eliminating the first k variables, with coefficients between 1 and p-1, decreasing terms, elements sorted by increasing leading monomials. A result is always printed, and files whose polynomials generate the same ideal give the same text, character by character, whatever threads, sorts and selection caps do. Polynomials that are not expanded break this: 7*x+y modulo 7 becomes zero, and x+x+y modulo 7 can give the basis x+y.", "quantifier": "all input files of the grammar, all primes below 2^31, all numbers of variables to be eliminated, all executions of F4 with the default linear algebra, assuming that no exponent exceeds 16 bits on the way", "why_tests_cant": "Tests compare outputs for a few systems. That the printed text is the reduced basis of the ideal written in the file needs all steps to fit together - reading, import, normalisation, F4, final reduction, printing - for every input and every interleaving.", "anchors": ["src/msolve/main.c:343-483", "src/msolve/msolve.c:1500-1590", "src/msolve/msolve.c:1897-2115", "src/msolve/msolve.c:3307-3345", "src/msolve/msolve.c:4035-4062", "src/msolve/iofiles.c:157-360", "src/neogb/io.c:270-450", "src/neogb/order.c:655-703", "src/neogb/f4.c:342-400"]}
{"id": "C74", "title": "Linear algebra over the rationals is exact", "statement": "In characteristic 0 the library function export_f4 does its linear algebra with integer rows and no fractions. For every matrix, number of threads and interleaving, the rows returned have coprime coefficients, positive leading coefficients, increasing columns and no entry in a known pivot column or in the leading column of another returned row; together with the known pivots they span the row space of the matrix over Q. These properties determine the rows, so that the result does not depend on the threads, nor on whether the known pivots are reduced among themselves first (linear algebra option 1). No row is stuck and the number of steps is bounded.", "quantifier": "all matrices with known pivots in the first columns, any number of rows and columns, coefficients of any size, all interleavings of the threads", "why_tests_cant": "Races between threads and wrong scaling of partly reduced rows show up only for particular matrices and schedules.", "anchors": ["src/neogb/la_qq.c:24-67", "src/neogb/la_qq.c:69-347", "src/neogb/la_qq.c:349-539", "src/neogb/la_qq.c:541-725", "src/neogb/la_qq.c:727-790"]}
{"id": "C75", "title": "Final reduction of a basis over the rationals", "statement": "In characteristic 0 with reduce_gb set, the final interreduction turns the rows (basis elements and the multiples needed as reducers) into an echelon form of the same row space without reducible entries. True when no two rows use the same coefficient array. False otherwise: the coefficients are swapped out of the array of the basis, the next row using it is zero and comes back as NULL, and the conversion to basis elements reads it. This happens whenever one proper multiple of a basis element is needed as a reducer, for example for x^2+x*y, y-1.", "quantifier": "all matrices of the final reduction", "why_tests_cant": "A test passes as long as the tails of its basis are not reducible by proper multiples; the crash needs a basis with a reducible tail.", "anchors": ["src/neogb/la_qq.c:792-877", "src/neogb/convert.c:630-763", "src/neogb/f4.c:254-340", "src/neogb/hash.c:1350-1400"]}
{"id": "C76", "title": "Normal forms: from the input file to the output", "statement": "msolve -n k on a file over a prime field prints, for each of the last k polynomials and in the order of the file, its normal form modulo the ideal generated by the other polynomials: a polynomial congruent to it none of whose monomials is divisible by a leading monomial of the ideal, with decreasing terms and coefficients between 1 and p-1, or 0. So 0 is printed exactly for the members of the ideal, and the output only depends on the ideal and the classes of the polynomials, with -i (the other polynomials are a Groebner basis) or without. False if one of the polynomials to be reduced is 0: it is counted as an invalid generator and a valid generator is dropped instead.", "quantifier": "all files, prime characteristics, numbers of variables, -e values and k; all sort functions, selections of pairs and thread schedules", "why_tests_cant": "The normal form of one polynomial can be compared with a known one; that it is right for every ideal, and that membership is decided correctly, cannot be tested. The failure needs a zero polynomial among those to be reduced.", "anchors": ["src/msolve/msolve.c:4148-4233", "src/msolve/iofiles.c:157-337", "src/neogb/nf.c:55-112", "src/neogb/engine.c:51-115", "src/neogb/io.c:250-371"]}
{"id": "C77", "title": "The library function export_f4: from the input arrays to the output arrays", "statement": "export_f4 over a prime field, called with arrays lens, exps, cfs that describe polynomials, returns with reduce_gb = 1 the arrays of the reduced Groebner basis of their ideal for the chosen order, smallest leading monomial first, with decreasing terms, leading coefficients 1 and all coefficients between 1 and p-1, and with reduce_gb = 0 a minimal Groebner basis; the return value is the number of terms. There always is a result; the one with reduce_gb = 1 only depends on the ideal. The array cfs of the caller is changed (p is added to negative coefficients), a second call with it gives the same result. If all generators are invalid the process exits, the branch return_zero is never reached. For mon_order = 1 (lexicographical) without elimination block the claim is false: the terms are imported in increasing order.", "quantifier": "all numbers of variables and generators, polynomials, primes below 2^31, elimination block lengths; all sort functions, selections of pairs and thread schedules", "why_tests_cant": "A test compares a few bases; that every basis is right, that the result is independent of threads and sorting, and that no index leaves the arrays cannot be tested. The lexicographical path of the interface has no test in the repository.", "anchors": ["src/neogb/f4.c:767-851", "src/neogb/engine.c:26-113", "src/neogb/io.c:25-58", "src/neogb/io.c:250-432", "src/neogb/io.c:454-592", "src/neogb/io.c:640-760", "src/neogb/io.c:889-920", "src/neogb/order.c:244-267"]}
{"id": "C78", "title": "From the input file to the printed solutions over a prime field", "statement": "msolve (option -g 0, no elimination order) with an input file over a prime field prints: [-1] exactly if the polynomials in the file generate the unit ideal; [1, nv, -1, []] exactly if the quotient by their ideal has infinite dimension; otherwise a parametrization whose third entry is the dimension of the quotient, with denominator 1, and all roots of whose eliminating polynomial come from solutions; if the degree of the eliminating polynomial is that dimension then the points described are exactly the solutions of the system in the file, with coordinates in any extension field. In the first two cases there is an output. In characteristic 2 and for characteristics from 1518500213 on a system with finitely many solutions, at least one, has no output; if the system has more than p solutions over the prime field, the points of a printed parametrization are not all of them.", "quantifier": "all input files over prime fields with more elements than variables, all random choices, results of FLINT, sort functions, thread schedules, and any number of restarts with exchanged variables and added linear forms", "why_tests_cant": "The result depends on random vectors, on random linear forms and on the sequence of restarts; a test sees one of these executions for one system.", "anchors": ["src/msolve/msolve.c:880-911", "src/msolve/msolve.c:1514-1648", "src/msolve/msolve.c:2060-2160", "src/msolve/msolve.c:3307-3420", "src/msolve/msolve.c:3508-3525", "src/msolve/msolve.c:4040-4148", "src/fglm/fglm_core.c:867-957", "src/fglm/fglm_core.c:1231-1361", "src/fglm/fglm_core.c:1511-1700"]}
{"id": "C79", "title": "From the input file to the printed Groebner basis over the rationals", "statement": "msolve -g 2 (with or without an elimination order) with an input file over the rationals: if the primes used are different and lucky (they divide no numerator and denominator in the file, and the reduced Groebner basis over the rationals is modulo each of them the reduced Groebner basis of the polynomials modulo the prime), then what is printed is a header with the length of the reduced Groebner basis of the elimination ideal for the degree reverse lexicographical order and, for each element in increasing order of the leading monomials, a polynomial with integer coefficients and positive leading coefficient that is the multiple of this element by its leading coefficient, unless one of the differences of coefficients is at least as large as the product of primes for which they agree; nothing is printed if the elimination ideal is zero, and nothing undefined happens if it is not. All primes but finitely many are lucky. With an unlucky first prime the printed list need not be a Groebner basis, although all later primes are accepted and the result is confirmed. If the only polynomial is zero the program stops with an error message.", "quantifier": "all input files over the rationals with expanded polynomials, all first primes, thread counts, sort functions, schedules, results of FLINT, doublings of the distance of reconstructions, and any number of restarts", "why_tests_cant": "The result depends on a random first prime, on the primes after it and on when the reconstruction succeeds; a test sees one sequence of primes. An unlucky prime is met with a probability of about 1e-7 only.", "anchors": ["src/msolve/main.c:343-483", "src/msolve/msolve.c:4708-4738", "src/msolve/lifting-gb.c:560-796", "src/msolve/lifting-gb.c:1144-1501", "src/msolve/lifting-gb.c:1582-1755", "src/neogb/io.c:374-403", "src/neogb/modular.h:41-60", "src/neogb/basis.c:377-459"]}
{"id": "C80", "title": "From the input file to the printed parametrization over the rationals", "statement": "msolve -P 1 or -P 2 with an input file over the rationals: the system of the last computation is the one of the file, or the one with two variables exchanged, or the one with an additional variable and a linear form without zero coefficients; its solutions are those of the file. If the primes used in the last computation are different and good for this system (lucky for the order, and dividing neither the number of solutions nor the numerators of the leading coefficients of the scaled coordinates), then [-1] is printed exactly if the polynomials generate the unit ideal; [1, nvars, -1, []] exactly if the quotient ring has infinite dimension; otherwise a parametrization whose stated degree is the dimension of the quotient ring over the rationals. If the degree of its eliminating polynomial is this dimension, then the ideal is in shape position with a separable eliminating polynomial, the printed polynomials agree with the exact parametrization modulo the primes, every coefficient whose difference is smaller than the product of the primes is exact, and, if all are, the printed parametrization describes exactly the solutions of the file over every field containing the rationals. All primes but finitely many are good for a given system.", "quantifier": "all input files over the rationals with expanded polynomials, all first primes, thread counts, schedules, random linear forms and vectors, results of FLINT and GMP, any number of restarts", "why_tests_cant": "The result depends on a random first prime, random vectors, the primes after it, the threads and on when the reconstruction succeeds; a test sees one of these sequences. That all parts agree on the same ideal can only be seen by composing them.", "anchors": ["src/msolve/msolve.c:1514-1808", "src/msolve/msolve.c:1940-2500", "src/msolve/msolve.c:3307-3420", "src/msolve/msolve.c:3447-3525", "src/msolve/msolve.c:4040-4148", "src/fglm/fglm_core.c:1712-1825", "src/msolve/hilbert.c:3046-3260"]}
{"id": "C81", "title": "From the input file to the printed boxes of the real solutions", "statement": "msolve (-P 0, default) or msolve -P 1 with an input file over the rationals and precision p: if the primes of the last computation are different and good for its system (as in C80), then [-1] is printed exactly if the polynomials generate the unit ideal and [1, nvars, -1, []] exactly if the quotient ring has infinite dimension; otherwise a list of boxes is printed (with -P 1 after the parametrization). If the parametrization (printed by the same computation with -P 2) is exact and has the degree of the quotient ring, and its real roots have a distance of 2^-max(p,128) at least, then the computation ends and the number of boxes is the number of real solutions of the system of the file; if the interval evaluation of the denominator by Horner's rule at these roots never has an intermediate interval with points on both sides of zero, then each box contains its own solution, with one interval for each variable of the file: in the order of the file with -P 0, in the order printed with the parametrization with -P 1. For every system there is a precision from which on these conditions on roots and intervals hold.", "quantifier": "all input files over the rationals with expanded polynomials, all precisions, first primes, thread counts, schedules, random linear forms and vectors, results of FLINT and GMP, any number of restarts", "why_tests_cant": "A missing, doubled or displaced box looks like a correct answer; whether each box belongs to one solution of the input file, also after a change of the order of the variables or with an added linear form, can only be seen by composing the restarts, the lifting, the isolation of the roots and the evaluation of the coordinates. Tests have few systems and one precision.", "anchors": ["src/msolve/msolve.c: isolate_real_roots_param, extract_real_roots_param, lazy_single_real_root_param, newvalue_denom", "src/msolve/msolve.c:3307-3420", "src/msolve/msolve.c:3447-3525", "src/usolve/evaluate.c:157-249"]}
{"id": "C82", "title": "Points printed outside shape position, for most random vectors", "statement": "msolve with an input file over a prime field, in the first computation (before a random linear form has been added), whatever the degree of the printed eliminating polynomial. Let D be the dimension of the quotient ring and n the number of variables. For each choice of the factors of the verification there is a set of at most (3n+1) D p^(D-1) of the p^D vectors such that for every random vector outside of it: each printed point is a solution of the system of the file, and the last coordinate of each solution is a root of the printed eliminating polynomial. If the last printed variable is a variable of the file then the printed points are exactly the solutions if and only if it takes different values at different solutions. If it does not, solutions are lost without a message also with the default options: for y^2, xy-y, (x-1)(x-2)(x-3) modulo 101 and all random choices but those with one of two elements special, only one of the three solutions is printed.", "quantifier": "all input files over prime fields with expanded polynomials, all options, all random vectors and factors, all results of FLINT, all degrees of the eliminating polynomial", "why_tests_cant": "The random vector is drawn anew in each run; a test sees one of p^D vectors. That bad vectors are rare, and that the comparison with the squares of the variables rejects the others, is a statement about all of them; the lost solutions look like a correct answer.", "anchors": ["src/fglm/fglm_core.c:959-1110", "src/fglm/fglm_core.c:1112-1330", "src/fglm/fglm_core.c: compute_parametrizations_non_shape_position_case, set_param_linear_vars", "src/msolve/msolve.c:1544-1648"]}
{"id": "C83", "title": "Success for most random vectors in shape position", "statement": "msolve with an input file over a prime field p (odd, below 1518500213) whose ideal is radical and in shape position: it is generated by w(x_n) and x_k + c_k(x_n) with w squarefree of degree D > 0. There is a set of at most (D+1) p^(D-1) of the p^D vectors such that for every random vector outside of it the first computation is safe and successful: no execution reaches undefined behaviour (in particular the branch of the inversion of the Hankel matrix that reads outside an array is not entered); if the staircase of the ideal is accepted (option -u, always with -u 4) then no restart occurs and there is a printed output; and every printed output has the variables of the file in their order, w as eliminating polynomial, and the c_k modulo w as coordinates.", "quantifier": "all input files over prime fields with expanded polynomials and ideals in shape position, all options, all random vectors outside the set, all former contents of memory, all results of FLINT", "why_tests_cant": "The out-of-bounds read occurs for a fraction of about 1/p of the random vectors, so it is practically invisible to tests; that nothing else can go wrong for the other vectors is a statement about all ideals and all vectors.", "anchors": ["src/fglm/fglm_core.c:150-420", "src/fglm/fglm_core.c:1511-1700", "src/msolve/msolve.c:1514-1648", "src/msolve/msolve.c:2060-2160", "src/fglm/fglm_core.c: invert_hankel_matrix, compute_parametrizations, nmod_fglm_compute_trace_data"]}
{"id": "C84", "title": "The arrays returned by the library function msolve_julia", "statement": "msolve_julia with characteristic 0, print_gb 0 and arrays that hold polynomials (lengths, exponent vectors, pairs of numerator and denominator) in the variables given by names. With genericity_handling 2 every call that ends, with good primes, returns arrays; no access outside of an array occurs. dim and dquot tell the unit ideal (0, 0) and positive dimension apart from the rest, exactly. Otherwise the lengths and coefficients returned describe a parametrization of the same kind as the printed one (C80): elimination polynomial, denominator and coordinates with their scalar, read one after the other; the linear form is returned exactly if a variable was added, and belongs to the ideal of the changed system. With get_param 0 or 1 the numerators and exponents of denominators, read as intervals [num/2^den], describe one box for each real solution and the box encloses it, in the order of the caller's variables for get_param 0 and in the changed order otherwise, if the parametrization is exact and the precision is sufficient (C81). The returned names are byte buffers without a terminating zero. With a prime characteristic and two variables at least a call that computes a parametrization dereferences a null pointer; with genericity_handling below 2 a generic failure writes outside of an array.", "quantifier": "all names, all systems of expanded polynomials with rational coefficients, all options get_param, genericity_handling, precision and threads, all good primes, all random choices, all numbers of restarts", "why_tests_cant": "The arrays have a layout that is nowhere described and the callers rely on it; the missing terminators and the write outside of the array are invisible unless the allocator returns nonzero memory. A test sees single systems and a few primes.", "anchors": ["src/msolve/msolve.c:98-105", "src/msolve/msolve.c:2089-2160", "src/msolve/msolve.c:3447-3525", "src/msolve/msolve.c:4708-4952", "src/msolve/msolve.c:4954-5108"]}
{"id": "C85", "title": "The arrays returned by the library function export_groebner_qq", "statement": "export_groebner_qq with characteristic 0, mon_order 0, elim_block_len e, truncate_lifting 0 on arrays that hold polynomials with rational coefficients in e + n variables. Let bs be the reduced Gr\u00f6bner basis of the elimination ideal over the rationals for the degree reverse lexicographical order. Every call with distinct lucky primes that returns, returns arrays (number of elements, lengths, exponent vectors over all e + n variables with zeros for the eliminated ones, one integer coefficient per term) that hold for each element of bs, in increasing order of leading monomials, a polynomial with the same leading monomial and positive leading coefficient a, which is a times the element unless a coefficient of the difference is at least as large as a product of used primes; the returned value is the number of terms. No access outside of an array occurs unless nothing is left after the elimination. If every generator has a coefficient zero the whole process ends.", "quantifier": "all arrays of expanded nonzero polynomials, all e and n > 0, all lucky distinct primes, all numbers of threads and restarts", "why_tests_cant": "The basis over the rationals is not computed directly, so a test compares against another system on single inputs; the layout with elimination is described only in a comment.", "anchors": ["src/msolve/lifting-gb.c:1503-1580", "src/msolve/lifting-gb.c:1766-1860", "src/msolve/lifting-gb.c:1144-1501", "src/neogb/io.c:374-403", "src/neogb/io.c:454-478"]}
{"id": "C86", "title": "The leading monomials printed by msolve -g 1 over the rationals", "statement": "For every input file over the rationals whose polynomials are expanded and every elimination block e, let bs be the reduced Gr\u00f6bner basis of the elimination ideal over the rationals for the degree reverse lexicographical order. If the prime modulo which msolve -g 1 computes is lucky, the program prints the seven lines of comments with the number of elements of bs and then exactly the leading monomials of bs in increasing order, each with coefficient one (1 for the unit ideal); the text does not depend on the prime. For a prime that is not lucky leading monomials can be missing.", "quantifier": "all input files of the format of C58 with characteristic 0, all e and n > 0, all lucky primes", "why_tests_cant": "Only one prime is used, nothing is verified: whether the printed leading ideal is the one over the rationals depends on the random prime; no test sees the unlucky ones.", "anchors": ["src/msolve/lifting-gb.c:1205-1239", "src/msolve/lifting-gb.c:560-714", "src/msolve/lifting-gb.c:1687-1755", "src/msolve/lifting-gb.c:345-390"]}
{"id": "C87", "title": "The leading monomials printed by msolve -g 1 over a prime field", "statement": "For every input file over a prime field whose polynomials are expanded and every elimination block e smaller than the number of variables, msolve -g 1 -e e prints seven lines of comments (title, characteristic, variables, order, number of elements) and then, in one list, exactly the leading monomials of the reduced Gr\u00f6bner basis of the ideal of the file for the degree reverse lexicographical or the block order, in increasing order and without coefficients; the text is the same for all files with the same variables and the same ideal. The unit ideal is an exception: its only leading monomial 1 is written as an empty text, so an empty list is printed.", "quantifier": "all input files of the format of C58 with a prime characteristic, all e; degrees in the reduced basis below 2^16", "why_tests_cant": "The expected output of a test is the output of an earlier run; the leading monomials depend on the whole computation, and the unit ideal is printed by a loop that is only wrong for exponents that are all zero.", "anchors": ["src/msolve/iofiles.c:157-252", "src/msolve/iofiles.c:339-360", "src/msolve/msolve.c:1500-1511"]}
{"id": "C88", "title": "The command line of msolve", "statement": "Every command line is read in exactly one way: flags may be joined behind one dash, a value may follow in the same or in the next word, other words are skipped, nothing counts behind --. Each setting with which a computation starts depends only on the last occurrence of its own letter and has the default of the program without it; numbers outside of the ranges of -g, -c, -d, -q, -e, -n, -M, -P, -p are replaced by a bound or by the default. The first -h or -V ends the program, whatever else is given; without a file or with an unknown option or a missing value nothing is computed. Whatever is written on the command line, no computation starts with settings outside of these ranges. Over fields with less than 2^15 elements the linear algebra is exact whatever -l says. The input file is read unchanged and only the output file is written, if they are different files.", "quantifier": "all lists of words (argv), all values, all disks", "why_tests_cant": "A test runs a few command lines; the claim is about every order, repetition and notation of options, including values that are not numbers or do not fit.", "anchors": ["src/msolve/main.c:150-340", "src/msolve/main.c:343-440"]}
{"id": "C89", "title": "The whole program", "statement": "A command line together with the content of the disk determines which computation is made and where its result is found. For a command line without -S, -C, -q, -l, -N, -L, -u, -v that names an input file and an output file (or none): over a prime field with -n k those of the normal forms (C76), whatever -g is; otherwise with -g 2, or with an elimination order and without -g, the executions of the program are those of the basis computation (C73, C79); with -g 1 those of the leading monomials (C86, C87); otherwise those of the solver with the values of -c, -d, -P, -p, -t (C78, C83). The text is the only content of the output file afterwards, or all of the standard output, and no other file is changed. Over a prime field with -g 2 the program has an execution, every execution writes the same text, and this text is the reduced Groebner basis of the ideal of the input file; it depends only on the ideal, the variables, the characteristic and -e. With -n k the line of one of the last k polynomials is 0 exactly if it is in the ideal of the others.", "quantifier": "all command lines of this form, in every order and notation of options; all input files of the forms of C73 and C79; all disks", "why_tests_cant": "A test runs the program on a few files with a few options; the claim is about all of them, and that options beside -e do not change a basis.", "anchors": ["src/msolve/main.c:343-483", "src/msolve/msolve.c:3527-3660", "src/msolve/msolve.c:4039-4070", "src/msolve/msolve.c:4700-4760"]}
{"id": "C90", "title": "Saturation from the input file to the output file", "statement": "msolve -S -g 2 on a file over a prime field writes, after comments, the reduced Groebner basis for the degree reverse lexicographic order of an ideal that contains the ideal I of all polynomials of the file but the last, and is contained in the saturation I : f^infinity by the last polynomial f. If the message that the basis is constant appears, the saturation is the whole ring. Primes of at most 16 bits are refused. Without -g nothing is written.", "quantifier": "all input files in expanded form over a prime field; all executions", "why_tests_cant": "A test compares the output for a few systems; the claim is about all systems, and the result being the saturation fails only for particular ones.", "anchors": ["src/msolve/msolve.c:3645-3737", "src/neogb/f4sat.c:494-768", "src/msolve/iofiles.c:339-360"]}
{"id": "C91", "title": "The subspace of the colon computation", "statement": "msolve -C computes in the span of a truncated staircase. Its rows are, in increasing order for the degree reverse lexicographic order, exactly the monomials that no leading monomial of the basis divides, whose degree is at most the greatest degree of the leading monomials and of the normal form, and whose product with some power of the last variable is a multiple of a leading monomial. Nothing is written outside of an array. For the unit ideal nothing is returned. The program ends with the message that the vector space is too small exactly if no leading monomial contains the last variable.", "quantifier": "all lists of leading monomials, all numbers of variables, all degree bounds; all ideals with a reduced Groebner basis", "why_tests_cant": "A test looks at a few bases; the claim is about the staircases of all of them, and the rows are moved in place within one array.", "anchors": ["src/msolve/hilbert.c:150-160", "src/msolve/hilbert.c:314-486", "src/msolve/msolve.c:3896-3921"]}
{"id": "C92", "title": "The vector of a normal form in the colon computation", "statement": "In msolve -C the normal form of the last polynomial is written as a vector in the rows of the truncated staircase: the entry of a row is the coefficient of its monomial in the normal form, and nothing is read outside of the terms of the normal form and the rows. For this the terms are compared with the rows in the degree reverse lexicographic order.", "quantifier": "all normal forms, all lists of rows, all numbers of variables", "why_tests_cant": "The vector is internal and enters a Krylov sequence; a wrong entry changes the answer or is hidden by luck. A test sees few shapes of normal forms.", "anchors": ["src/msolve/hilbert.c:580-638", "src/msolve/hilbert.c:925-955", "src/msolve/hilbert.c:2073-2089"]}
{"id": "C93", "title": "The rows of the matrix of the colon computation", "statement": "msolve -C builds the matrix of the multiplication by the last variable in the rows of the truncated staircase. A row whose product with the last variable is a row gets a trivial entry that points to it; every other row gets a dense row, which is taken from the element of the basis whose leading monomial is the product, or from the normal form of the product. All arrays are large enough.", "quantifier": "all leading monomials of reduced bases, all degrees of normal forms, all numbers of variables", "why_tests_cant": "The arrays are sized by counting in a first loop what a second loop writes; a test sees few staircases, and writes behind an array are often not noticed.", "anchors": ["src/msolve/hilbert.c:501-524", "src/msolve/hilbert.c:2090-2170", "src/msolve/hilbert.c:2257-2317", "src/msolve/hilbert.c:2341-2419"]}
{"id": "C94", "title": "The dense rows from elements of the basis in the colon computation", "statement": "In the matrix of msolve -C, the dense row that is taken from an element of the Groebner basis contains the negatives of the coefficients of its terms other than the leading one, each at the row of its monomial, and zeros elsewhere; terms of other elements of the basis do not enter.", "quantifier": "all elements of all bases, all lists of rows, all numbers of variables, all primes", "why_tests_cant": "The terms of all elements are in one array, and the loop is bounded by the start of this array, not by the start of the element. Tests see few bases; a wrong entry changes the matrix without an error.", "anchors": ["src/msolve/hilbert.c:846-884", "src/msolve/hilbert.c:580-608"]}
{"id": "C95", "title": "The number of terms and the polynomial in the colon computation", "statement": "For msolve -C, the loop that computes terms of the sequence and guesses the polynomial ends without leaving its arrays, and the last polynomial is the square-free part of the minimal polynomial of the sequence, if the sequence satisfies a recurrence whose order is at most the number of rows.", "quantifier": "all sequences over all fields, all numbers of rows", "why_tests_cant": "The loop stops early, when the degree of a guess is smaller than the tentative degree; whether the guess is then right depends on terms that were not computed. Tests see few sequences, and a wrong polynomial has no visible mark.", "anchors": ["src/fglm/fglm_core.c:1850-1957", "src/fglm/fglm_core.c:1827-1848", "src/fglm/fglm_core.c:907-935"]}
{"id": "C96", "title": "The random start vector and the products with the matrix in the colon computation", "statement": "For msolve -C and every prime that is accepted, the vectors of the sequence represent the products of the powers of the matrix with the random start vector modulo the prime, and the terms of the sequence are the products of these vectors with the vector of the normal form.", "quantifier": "all matrices, all random numbers, all primes below 1518500213, all numbers of products", "why_tests_cant": "The entries of the start vector are sums of two remainders that are not reduced; whether 64 bits are enough for the sums of products depends on the prime and on random numbers. A test would have to draw bad numbers, and the wrong result has no visible mark.", "anchors": ["src/fglm/fglm_core.c:1485-1506", "src/fglm/fglm_core.c:525-573", "src/fglm/fglm_core.c:1884-1930", "src/fglm/linalg-fglm.c:626-776"]}
{"id": "C97", "title": "The report about the parametrizations in the colon computation", "statement": "When msolve -C reports that all parametrizations seem correct, each of them was compared with a second computation with a random number and found equal; for the other reports, the number in the message is the number of coordinates before the first one that differs; the program ends regularly after each message.", "quantifier": "all numbers of variables, all results of the comparisons, all primes", "why_tests_cant": "Whether a comparison takes place depends on an array of marks that is passed through three functions; a test with correct parametrizations gives the same message with and without comparisons.", "anchors": ["src/fglm/fglm_core.c:1363-1461", "src/fglm/fglm_core.c:2085-2182", "src/msolve/msolve.c:3964-3982"]}
{"id": "C98", "title": "The parametrizations in the colon computation", "statement": "For msolve -C, if the sequence satisfies a recurrence of the order that was used, the polynomials for the parametrizations are computed: a coordinate whose sequence is a polynomial q in the shift applied to the sequence of the normal form gets the negative of q modulo the square-free part of the minimal polynomial.", "quantifier": "all sequences over all fields, all numbers of rows, all polynomials q", "why_tests_cant": "The polynomial that the division uses is kept in a structure that the loop over the terms resets in one of its branches. Whether this branch is the last one depends on the degree of the minimal polynomial; a test sees it only for the right systems.", "anchors": ["src/fglm/fglm_core.c:1901-1956", "src/fglm/fglm_core.c:1117-1155", "src/fglm/fglm_core.c:1192-1225", "src/fglm/fglm_core.c:1363-1399", "src/fglm/berlekamp_massey.c:103-141"]}
