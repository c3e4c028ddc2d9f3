{
 "claims": [
  {
   "property": "C01",
   "status": "proved",
   "theorems": [
    "Verif.Props.C01_modInverse32",
    "Verif.Props.C01_modInverse16",
    "Verif.Props.C01_modInverse8"
   ],
   "note": "mod_p_inverse_8/16/32 with overflow of the signed locals as a distinct outcome."
  },
  {
   "property": "C02",
   "status": "proved",
   "theorems": [
    "Verif.Props.C02_barrett",
    "Verif.Props.C02_barrett_extended",
    "Verif.Props.C02_barrett_rec",
    "Verif.Props.C02_addmod",
    "Verif.Props.C02_mulmod",
    "Verif.Props.C02_preinv_as_written_wrong",
    "Verif.Props.C02_preinv_as_written"
   ],
   "note": "Exact on the documented range; the inverse passed by fglm_core.c (C xor instead of power) is shown wrong in C02_preinv_as_written_wrong."
  },
  {
   "property": "C03",
   "status": "proved",
   "theorems": [
    "Verif.Props.C03_crt_step",
    "Verif.Props.C03_crt_recovers"
   ],
   "note": "FLINT's n_invmod is a parameter with assumed specification InvSpec."
  },
  {
   "property": "C04",
   "status": "proved",
   "theorems": [
    "Verif.Props.C04_ratrecon",
    "Verif.Props.C04_ratreconwden",
    "Verif.Props.C04_mpq_reconstruct"
   ],
   "note": "The code's bounds are non-strict (|n|<=N, d<=D) although the comment says strict."
  },
  {
   "property": "C05",
   "status": "proved",
   "theorems": [
    "Verif.Props.C05_vector_reconstruction",
    "Verif.Props.C05_vector_complete",
    "Verif.Props.C05_vector_with_denominator"
   ],
   "note": "Both variants; the update of *maxrec on failure is not modelled."
  },
  {
   "property": "C06",
   "status": "partial",
   "theorems": [
    "Verif.Props.C06_accepted_is_prime",
    "Verif.Props.C06_decides",
    "Verif.Props.C06_next_prime",
    "Verif.Props.C06_small_inputs_wrong",
    "Verif.Props.C06_large_prime_rejected"
   ],
   "note": "Sound for every 32 bit input except 1; decides primality for 24 <= n < 65531^2. Outside that range the claim is false: below 24 see C06_small_inputs_wrong, and the prime 2^32 - 5 is rejected because the square in the loop bound wraps (C06_large_prime_rejected)."
  },
  {
   "property": "C07",
   "status": "proved",
   "theorems": [
    "Verif.Props.C07_drl_admissible",
    "Verif.Props.C07_drl_comparison",
    "Verif.Props.C07_drl_sorting_variants",
    "Verif.Props.C07_drl_degree_overflow"
   ],
   "note": "Total degree below 2^16; C07_drl_degree_overflow shows the comparison is wrong above."
  },
  {
   "property": "C08",
   "status": "proved",
   "theorems": [
    "Verif.Props.C08_be_admissible",
    "Verif.Props.C08_be_comparison",
    "Verif.Props.C08_be_eliminates",
    "Verif.Props.C08_be_sorting_variants"
   ],
   "note": "Total degree below 2^16."
  },
  {
   "property": "C09",
   "status": "proved",
   "theorems": [
    "Verif.Props.C09_lex_admissible",
    "Verif.Props.C09_lex_comparison",
    "Verif.Props.C09_lex_sorting_variants"
   ],
   "note": ""
  },
  {
   "property": "C10",
   "status": "proved",
   "theorems": [
    "Verif.Props.C10_division_test",
    "Verif.Props.C10_divides",
    "Verif.Props.C10_find_divisor"
   ],
   "note": "For every mask threshold table; layouts with at most 32 bits, as initialisation guarantees."
  },
  {
   "property": "C11",
   "status": "proved",
   "theorems": [
    "Verif.Props.C11_hash_consing",
    "Verif.Props.C11_index_stable",
    "Verif.Props.C11_insert_progress",
    "Verif.Props.C11_enlarge_progress"
   ],
   "note": "Histories of insertions and enlargements of any length; allocation failure / index exhaustion is a distinct outcome."
  },
  {
   "property": "C12",
   "status": "proved",
   "theorems": [
    "Verif.Props.C12_product_insertion",
    "Verif.Props.C12_stored_hash",
    "Verif.Props.C12_overflow_breaks_hash"
   ],
   "note": "Under the condition that no exponent sum exceeds 16 bits; C12_overflow_breaks_hash shows the failure beyond."
  },
  {
   "property": "C13",
   "status": "proved",
   "theorems": [
    "Verif.Props.C13_lcm",
    "Verif.Props.C13_lcm_least",
    "Verif.Props.C13_coprime"
   ],
   "note": ""
  },
  {
   "property": "C14",
   "status": "proved",
   "theorems": [
    "Verif.Props.C14_round_trip",
    "Verif.Props.C14_degree_entries",
    "Verif.Props.C14_round_trip_table",
    "Verif.Props.C14_export_size",
    "Verif.Props.C14_export_zero_poly_overflow"
   ],
   "note": "Extra finding: C14_export_zero_poly_overflow (zero polynomial with elimination block writes nv+1 exponents)."
  },
  {
   "property": "C15",
   "status": "partial",
   "theorems": [
    "Verif.Props.C15_valid_generator_lost",
    "Verif.Props.C15_imported_exactly",
    "Verif.Props.C15_no_generator_lost_partial"
   ],
   "note": "False in general (C15_valid_generator_lost); proved when the invalid generators come last; C15_imported_exactly gives the exact behaviour."
  },
  {
   "property": "C16",
   "status": "partial",
   "theorems": [
    "Verif.Props.C16_coefficient_import_partial",
    "Verif.Props.C16_large_negative_coefficient",
    "Verif.Props.C16_rational_import"
   ],
   "note": "False for c < -p (C16_large_negative_coefficient); proved for -p <= c < 2^31; rational import proved."
  },
  {
   "property": "C17",
   "status": "partial",
   "theorems": [
    "Verif.Props.C17_width_partial",
    "Verif.Props.C17_zero",
    "Verif.Props.C17_large_characteristic"
   ],
   "note": "False for accepted characteristics >= 2^31 (C17_large_characteristic); proved below."
  },
  {
   "property": "C18",
   "status": "proved",
   "theorems": [
    "Verif.Props.C18_sort_terms",
    "Verif.Props.C18_strictly_decreasing"
   ],
   "note": "sort_r (qsort) is trusted to deliver a sorting permutation."
  },
  {
   "property": "C19",
   "status": "proved",
   "theorems": [
    "Verif.Props.C19_reduce_31_bit",
    "Verif.Props.C19_reduce_lazy",
    "Verif.Props.C19_reduce_17_bit_columns",
    "Verif.Props.C19_lazy_overflow"
   ],
   "note": "31 bit variant for all primes below 2^31 and any number of columns; lazy variants (17 bit, 16 bit, 8 bit) under the column bound ncols*(p-1)^2 < 2^63, with an overflow witness beyond it. The unused 32 bit variant (fc >= 2^31 is rejected on input), the tracer and the saturation variants are not modelled."
  },
  {
   "property": "C20",
   "status": "proved",
   "theorems": [
    "Verif.Props.C20_normalise_row",
    "Verif.Props.C20_normalise_initial"
   ],
   "note": "sparse matrix rows and initial basis, all three coefficient widths."
  },
  {
   "property": "C21",
   "status": "proved",
   "theorems": [
    "Verif.Props.C21_columns_drl",
    "Verif.Props.C21_columns_be",
    "Verif.Props.C21_columns_lex",
    "Verif.Props.C21_reducer_head",
    "Verif.Props.C21_new_rows_sorted"
   ],
   "note": "convert_hashes_to_columns and convert_columns_to_hashes; the library sort is any sorted permutation; index values 1 (no pivot) and 2 (pivot) as left by symbolic preprocessing."
  },
  {
   "property": "C22",
   "status": "proved",
   "theorems": [
    "Verif.Props.C22_remove_redundant",
    "Verif.Props.C22_keep_reduced"
   ],
   "note": "final_remove_redundant_elements (same code in process_redundant_elements) and the last loop of reduce_basis."
  },
  {
   "property": "C23",
   "status": "proved",
   "theorems": [
    "Verif.Props.C23_dimension_zero",
    "Verif.Props.C23_unit_ideal"
   ],
   "note": "Exact for pairwise incomparable leading monomials different from 1; C23_unit_ideal shows the answer for the unit ideal."
  },
  {
   "property": "C24",
   "status": "proved",
   "theorems": [
    "Verif.Props.C24_monomial_basis",
    "Verif.Props.C24_termination"
   ],
   "note": "monomial_basis with its index bookkeeping; correctness, termination exactly in the zero-dimensional case."
  },
  {
   "property": "C25",
   "status": "proved",
   "theorems": [
    "Verif.Props.C25_invariant",
    "Verif.Props.C25_minpoly",
    "Verif.Props.C25_unique",
    "Verif.Props.C25_compute_minpoly",
    "Verif.Props.C25_squarefree"
   ],
   "note": "FLINT polynomial operations stand for ring operations; nmod_poly_hgcd and factor_squarefree enter as explicit assumptions (HgcdOk, shown satisfiable; SqfOk). compute_elim_poly calls FLINT's reduce, which takes the same steps as the modelled nmod_em_gcd."
  },
  {
   "property": "C26",
   "status": "proved",
   "theorems": [
    "Verif.Props.C26_eval_dyadic",
    "Verif.Props.C26_eval_dyadic_sign",
    "Verif.Props.C26_eval_one_half",
    "Verif.Props.C26_eval_integer",
    "Verif.Props.C26_values_at_bounds"
   ],
   "note": ""
  },
  {
   "property": "C27",
   "status": "proved",
   "theorems": [
    "Verif.Props.C27_taylor_naive",
    "Verif.Props.C27_taylor_dac",
    "Verif.Props.C27_block_size",
    "Verif.Props.C27_degree_zero"
   ],
   "note": "Degree >= 1; for degree 0 the naive shift loops forever (C27_degree_zero). FLINT/GMP multiplication is trusted."
  },
  {
   "property": "C28",
   "status": "proved",
   "theorems": [
    "Verif.Props.C28_rescale",
    "Verif.Props.C28_rescale_roots",
    "Verif.Props.C28_rescale_undo",
    "Verif.Props.C28_content"
   ],
   "note": ""
  },
  {
   "property": "C29",
   "status": "proved",
   "theorems": [
    "Verif.Props.C29_divide_root",
    "Verif.Props.C29_other_roots"
   ],
   "note": ""
  },
  {
   "property": "C30",
   "status": "proved",
   "theorems": [
    "Verif.Props.C30_root_bound",
    "Verif.Props.C30_no_root_code",
    "Verif.Props.C30_minus_one_ambiguous"
   ],
   "note": "The value -1 is also returned for polynomials with a positive root below 1/2 (C30_minus_one_ambiguous); the bound holds in every case."
  },
  {
   "property": "C31",
   "status": "proved",
   "theorems": [
    "Verif.Props.C31_variations",
    "Verif.Props.C31_truncated",
    "Verif.Props.C31_truncated_vs_exact",
    "Verif.Props.C31_descartes"
   ],
   "note": "The error bits of the truncated shift are certified for every truncation position and block size."
  },
  {
   "property": "C32",
   "status": "proved",
   "theorems": [
    "Verif.Props.C32_isolation",
    "Verif.Props.C32_count",
    "Verif.Props.C32_real_roots"
   ],
   "note": "bisection_Uspensky and real_roots in full with the library's flag values (classical_algo = 0, hasrealroots = 0); search = 0, one thread."
  },
  {
   "property": "C33",
   "status": "proved",
   "theorems": [
    "Verif.Props.C33_merge_positive",
    "Verif.Props.C33_merge_negative"
   ],
   "note": "Exponents unbounded (the code converts bounds to int)."
  },
  {
   "property": "C34",
   "status": "proved",
   "theorems": [
    "Verif.Props.C34_step",
    "Verif.Props.C34_loop",
    "Verif.Props.C34_real_roots"
   ],
   "note": "Precision >= 0 for the complete pipeline; shifts 1<<Nlog with Nlog >= 63 (undefined in C, unused value) are an arbitrary parameter."
  },
  {
   "property": "C35",
   "status": "partial",
   "theorems": [
    "Verif.Props.C35_not_enclosing",
    "Verif.Props.C35_interval_total",
    "Verif.Props.C35_interval_partial",
    "Verif.Props.C35_precision_partial"
   ],
   "note": "False as stated: C35_not_enclosing gives 4x^2-6x-3 on [1,2]. Proved: no exit (C35_interval_total), enclosure and equality with the natural interval extension when no intermediate interval straddles zero (C35_interval_partial), enclosure at every point from some precision on (C35_precision_partial)."
  },
  {
   "property": "C36",
   "status": "proved",
   "theorems": [
    "Verif.Props.C36_table",
    "Verif.Props.C36_powers",
    "Verif.Props.C36_scalar_product",
    "Verif.Props.C36_enclosure"
   ],
   "note": "Exact value of every table entry and of the scalar product, and enclosure for all real points of the interval."
  },
  {
   "property": "C37",
   "status": "proved",
   "theorems": [
    "Verif.Props.C37_division",
    "Verif.Props.C37_division_encloses",
    "Verif.Props.C37_exact_root"
   ],
   "note": "Exact value of the directed division in all sign cases, enclosure, and the exact-root coordinates as floor and ceiling. The whole computation of a point is C54."
  },
  {
   "property": "C38",
   "status": "proved",
   "theorems": [
    "Verif.Props.C38_normalize",
    "Verif.Props.C38_lowest_terms",
    "Verif.Props.C38_display_bound",
    "Verif.Props.C38_display"
   ],
   "note": "Both bounds, lowest terms, and the printed text."
  },
  {
   "property": "C39",
   "status": "proved",
   "theorems": [
    "Verif.Props.C39_undo",
    "Verif.Props.C39_names",
    "Verif.Props.C39_points",
    "Verif.Props.C39_names_run"
   ],
   "note": "The exponent arrays are modelled flat with the index arithmetic of the code. For every sequence of failed attempts the returned points are in bijection with the solutions of the input system over any field of the characteristic, in the order of the input variables; this covers the swaps, the added linear form (powers or random) and the final reordering of the points."
  },
  {
   "property": "C40",
   "status": "partial",
   "theorems": [
    "Verif.Props.C40_elim",
    "Verif.Props.C40_elim_index",
    "Verif.Props.C40_param_partial",
    "Verif.Props.C40_points_partial",
    "Verif.Props.C40_high_coefficients_unchecked",
    "Verif.Props.C40_vanishing_denominator"
   ],
   "note": "False as stated: C40_high_coefficients_unchecked, C40_vanishing_denominator. Proved: the exact meaning of success for the eliminating polynomial (unconditional, C40_elim) and for all coordinates when no denominator vanishes modulo the prime (C40_param_partial), and the consequence for points (C40_points_partial)."
  },
  {
   "property": "C41",
   "status": "proved",
   "theorems": [
    "Verif.Props.C41_basis",
    "Verif.Props.C41_unique",
    "Verif.Props.C41_univariate"
   ],
   "note": "Both content functions are modelled with their unrolled loops. The result is the primitive associate with positive leading coefficient, proved unique; a polynomial whose stored leading coefficient is zero is left unchanged. The precondition PRELOOP = length mod 4 is the one the import establishes. The univariate functions have no caller in the tree."
  },
  {
   "property": "C42",
   "status": "partial",
   "theorems": [
    "Verif.Props.C42_read_partial",
    "Verif.Props.C42_read_rational",
    "Verif.Props.C42_print",
    "Verif.Props.C42_zero_coefficient",
    "Verif.Props.C42_minus_zero",
    "Verif.Props.C42_repeated_factor",
    "Verif.Props.C42_two_numbers",
    "Verif.Props.C42_unknown_name",
    "Verif.Props.C42_large_first",
    "Verif.Props.C42_denominator",
    "Verif.Props.C42_leading_plus",
    "Verif.Props.C42_not_reduced"
   ],
   "note": "Lines of a grammar (optional sign, optional numeral, distinct variables with optional exponents) are read as written; over prime fields under the conditions FirstNum and InnerNum on the numerals (no denominators, no zero behind the first term, bounded size), over the rationals without conditions. Printed basis elements are read back. The negations show that the conditions are needed."
  },
  {
   "property": "C43",
   "status": "proved",
   "theorems": [
    "Verif.Props.C43_selection",
    "Verif.Props.C43_reachable",
    "Verif.Props.C43_class_split"
   ],
   "note": "The comment in symbol.c 263-264 (pairs with the same lcm as the last selected are also taken) is false with a cap: C43_class_split."
  },
  {
   "property": "C44",
   "status": "proved",
   "theorems": [
    "Verif.Props.C44_groebner",
    "Verif.Props.C44_progress",
    "Verif.Props.C44_terminates",
    "Verif.Props.C44_reduced"
   ],
   "note": "F4 over prime fields below 2^31, exact sparse linear algebra. The modelled rows are reduced one after the other; the orders of rows and of equal pairs are arbitrary. Not modelled: tracing, probabilistic linear algebra, degree truncation."
  },
  {
   "property": "C45",
   "status": "proved",
   "theorems": [
    "Verif.Props.C45_linvars",
    "Verif.Props.C45_check",
    "Verif.Props.C45_set",
    "Verif.Props.C45_check_elimination"
   ],
   "note": "check_and_set_linear_poly reads wrong slots when an elimination block is present (C45_check_elimination); set_linear_poly is correct for every layout."
  },
  {
   "property": "C46",
   "status": "partial",
   "theorems": [
    "Verif.Props.C46_portable_row",
    "Verif.Props.C46_avx_row_partial",
    "Verif.Props.C46_avx_row_overflow",
    "Verif.Props.C46_multiplication_partial",
    "Verif.Props.C46_multiplication_portable"
   ],
   "note": "Portable path exact for all primes < 2^31; AVX2 path exact for p <= 1518500249 (covers all primes the solver draws), false for p = 2^31-1 (C46_avx_row_overflow)."
  },
  {
   "property": "C47",
   "status": "proved",
   "theorems": [
    "Verif.Props.C47_parallel_echelon_31",
    "Verif.Props.C47_parallel_echelon_17"
   ],
   "note": "exact_sparse_reduced_echelon_form_ff_32 for nf = 0 outside the final reduction step; memory is sequentially consistent in the model. The probabilistic variants are not modelled."
  },
  {
   "property": "C48",
   "status": "proved",
   "theorems": [
    "Verif.Props.C48_no_overflow"
   ],
   "note": "Model returns a distinct outcome for a write outside the array; proved unreachable."
  },
  {
   "property": "C49",
   "status": "proved",
   "theorems": [
    "Verif.Props.C49_isolation_count"
   ],
   "note": ""
  },
  {
   "property": "C50",
   "status": "proved",
   "theorems": [
    "Verif.Props.C50_isolation_ends",
    "Verif.Props.C50_isolation_ends_simple"
   ],
   "note": "Machine integers for k and precision unbounded."
  },
  {
   "property": "C51",
   "status": "proved",
   "theorems": [
    "Verif.Props.C51_deterministic"
   ],
   "note": "Same model as C44."
  },
  {
   "property": "C52",
   "status": "proved",
   "theorems": [
    "Verif.Props.C52_outcome",
    "Verif.Props.C52_other_reads_outside",
    "Verif.Props.C52_solve"
   ],
   "note": "The branch of invert_hankel for a zero last entry (fglm_core.c 256-354) is an own outcome 'other' and is not modelled further. The branch for a zero last entry of the first column of the inverse (fglm_core.c 253-354) reads outside the array of the points: C52_other_reads_outside."
  },
  {
   "property": "C53",
   "status": "proved",
   "theorems": [
    "Verif.Props.C53_shape",
    "Verif.Props.C53_table",
    "Verif.Props.C53_verify"
   ],
   "note": "Shape position: every random vector. Outside shape position the characterization is exact, correctness at points needs that the variable is a polynomial in the last one up to nilpotents killed by the cofactor; the acceptance of the verification is characterized, it is not sound for every linear form."
  },
  {
   "property": "C54",
   "status": "partial",
   "theorems": [
    "Verif.Props.C54_root_lost",
    "Verif.Props.C54_wrong_sign",
    "Verif.Props.C54_points_partial",
    "Verif.Props.C54_large_precision_partial",
    "Verif.Props.C54_good"
   ],
   "note": "False as stated: C54_root_lost (a root next to a dyadic root is lost) and C54_wrong_sign (the box has the wrong sign) are runs of the model at the default precision. Proved: termination, isolation and enclosure when the roots are apart at the isolation precision and no Horner intermediate of the denominator straddles zero (C54_points_partial), and unconditionally from some precision on (C54_large_precision_partial)."
  },
  {
   "property": "C55",
   "status": "proved",
   "theorems": [
    "Verif.Props.C55_normalize",
    "Verif.Props.C55_points"
   ],
   "note": "FLINT products and remainders are the polynomial operations; n_gcdinv is the inverse."
  },
  {
   "property": "C56",
   "status": "proved",
   "theorems": [
    "Verif.Props.C56_confirmed"
   ],
   "note": "The reconstruction and the check are arbitrary functions; primes are assumed pairwise different (next_prime wraps around after the last prime of 31 bits)."
  },
  {
   "property": "C57",
   "status": "partial",
   "theorems": [
    "Verif.Props.C57_form_partial",
    "Verif.Props.C57_stale_form",
    "Verif.Props.C57_name_clash"
   ],
   "note": "False: a failure after a random choice replaces the coefficients but the old random form is printed (C57_stale_form), and the new variable A may clash with an input name (C57_name_clash). C57_form_partial: the printed form is right if no random form was chosen or if the last restart chose it."
  },
  {
   "property": "C58",
   "status": "proved",
   "theorems": [
    "Verif.Props.C58_file",
    "Verif.Props.C58_file_rational",
    "Verif.Props.C58_print",
    "Verif.Props.C58_lines",
    "Verif.Props.C58_same_line",
    "Verif.Props.C58_last_comma",
    "Verif.Props.C58_two_lines",
    "Verif.Props.C58_tab",
    "Verif.Props.C58_rejects"
   ],
   "note": "readFile models the whole of get_data_from_file on the text of the file; lines of more than 2^30 characters and sizes beyond 32 bits are not modelled."
  },
  {
   "property": "C59",
   "status": "proved",
   "theorems": [
    "Verif.Props.C59_terminates",
    "Verif.Props.C59_normal_forms",
    "Verif.Props.C59_unique",
    "Verif.Props.C59_membership",
    "Verif.Props.C59_ideal_membership"
   ],
   "note": "Includes the composition with F4: for the basis computed by F4 from generators F the result is zero exactly for members of the ideal generated by F. Export of the results is C14 (which also records the overflow for zero results with an elimination order)."
  },
  {
   "property": "C60",
   "status": "proved",
   "theorems": [
    "Verif.Props.C60_matrix",
    "Verif.Props.C60_basis",
    "Verif.Props.C60_product"
   ],
   "note": "build_matrixn_unstable_from_bs_trace; the variant for the application of a trace is modelled for C80 (MatApply.lean). Not modelled: the variants for colon ideals and without normal forms."
  },
  {
   "property": "C61",
   "status": "proved",
   "theorems": [
    "Verif.Props.C61_modular"
   ],
   "note": "Composition of C44, C24, C59, C60, C25, C52 and C53 for the shape position. FLINT functions as in C25; matrix-vector products and sequence over the field (the machine products are C46)."
  },
  {
   "property": "C62",
   "status": "proved",
   "theorems": [
    "Verif.Props.C62_confirmed",
    "Verif.Props.C62_exact",
    "Verif.Props.C62_no_abort",
    "Verif.Props.C62_unreported_prime_aborts",
    "Verif.Props.C62_not_certified"
   ],
   "note": "Proved for the loop after the learning phase, with the F4 computations as events that deliver images. FLINT's n_invmod and fmpz_multi_CRT_ui are parameters with the hypotheses InvSpec and McrtSpec, shown satisfiable. C62_unreported_prime_aborts: a prime dropped at lifting-gb.c 768-773 is not reported, and the program stops. C62_not_certified: right images of a large coefficient are accepted as a small one, so the bound in C62_exact is needed."
  },
  {
   "property": "C63",
   "status": "proved",
   "theorems": [
    "Verif.Props.C63_elimination",
    "Verif.Props.C63_storage",
    "Verif.Props.C63_zero_elimination"
   ],
   "note": "Proved for reduced bases as delivered by C44 (structure ModGb). C63_zero_elimination: when the elimination ideal is zero, a row before the array is read. The name grevlex_is_less_than is wrong (it compares degrees, and entries only for equality), but the slots found are sufficient."
  },
  {
   "property": "C64",
   "status": "proved",
   "theorems": [
    "Verif.Props.C64_export"
   ],
   "note": "Composition of C62 and C63 with export_results_from_groebner_qq. The hypothesis on the number of elements excludes the case of C62_unreported_prime_aborts. truncate_lifting is not used."
  },
  {
   "property": "C65",
   "status": "proved",
   "theorems": [
    "Verif.Props.C65_congruent",
    "Verif.Props.C65_reduces",
    "Verif.Props.C65_confirmed",
    "Verif.Props.C65_exact",
    "Verif.Props.C65_not_certified",
    "Verif.Props.C65_stale_entries"
   ],
   "note": "Without matrix lifting (lift_matrix is 0 by default). The images are taken with the same lengths of the coordinates for all primes, which the code assumes in a comment; C65_stale_entries shows that the assumption is needed, C65_congruent is the statement without it. C65_not_certified: a confirmed result need not be exact."
  },
  {
   "property": "C66",
   "status": "proved",
   "theorems": [
    "Verif.Props.C66_learn",
    "Verif.Props.C66_total",
    "Verif.Props.C66_sound",
    "Verif.Props.C66_iff",
    "Verif.Props.C66_same",
    "Verif.Props.C66_homogeneous",
    "Verif.Props.C66_unlucky"
   ],
   "note": "The statement does not say that accepted bases are Groebner bases in general: C66_unlucky shows input where nothing is recorded modulo the first prime and the run modulo every other prime is accepted with a set that is not a Groebner basis. C66_homogeneous gives a condition under which this cannot happen."
  },
  {
   "property": "C67",
   "status": "partial",
   "theorems": [
    "Verif.Props.Batch67.C67_no_rejected_partial",
    "Verif.Props.Batch67.C67_one_thread_partial",
    "Verif.Props.Batch67.C67_next_batch_crashes",
    "Verif.Props.Batch67.C67_race"
   ],
   "note": "False of the code: a rejected prime sets nmod_params[i] to NULL for good, and the next prime of this thread which is not rejected writes through it (C67_next_batch_crashes, every execution, one thread); the error variable is shared by the threads (C67_race). Proved: everything as long as no prime is rejected (any threads), and single batches with one thread."
  },
  {
   "property": "C68",
   "status": "proved",
   "theorems": [
    "Verif.Props.C68_probabilistic_31",
    "Verif.Props.C68_probabilistic_17",
    "Verif.Props.C68_bad_draws",
    "Verif.Props.C68_blocks",
    "Verif.Props.C68_can_lose"
   ],
   "note": "That rand() delivers independent uniform numbers is not part of the model; the theorem bounds the number of bad vectors of multipliers for any space. C68_can_lose shows that rows are lost for some draws."
  },
  {
   "property": "C69",
   "status": "partial",
   "theorems": [
    "Verif.Props.C69_between_partial",
    "Verif.Props.C69_constant",
    "Verif.Props.C69_test_partial",
    "Verif.Props.C69_kernel",
    "Verif.Props.C69_empty_kernel_partial",
    "Verif.Props.C69_terminates",
    "Verif.Props.C69_not_saturated",
    "Verif.Props.C69_test_wrong"
   ],
   "note": "The full claim is false of the code: C69_not_saturated (no pairs, no saturation step) and C69_test_wrong (the test says yes because the element is not monic) are machine-checked counterexamples. Proved for every run: the result is the reduced Groebner basis of an ideal between I and I : f^infinity; it is the saturation if the run ends with a constant, with a yes of the test for a monic element, or if the kernel for all standard monomials is empty; kernels are exact; the loops end."
  },
  {
   "property": "C70",
   "status": "proved",
   "theorems": [
    "Verif.Props.C70_poly",
    "Verif.Props.C70_basis",
    "Verif.Props.C70_leads",
    "Verif.Props.C70_run",
    "Verif.Props.C70_unit"
   ],
   "note": "Round trip against the model of the parser (C42). C70_run shows that every polynomial has the required form when the lifting ends; the unit ideal, which is not lifted, is C70_unit. The text of a vanishing coefficient with a denominator would be malformed (example beside the theorems); C70_run excludes it."
  },
  {
   "property": "C71",
   "status": "proved",
   "theorems": [
    "Verif.Props.C71_empty",
    "Verif.Props.C71_dim",
    "Verif.Props.C71_points",
    "Verif.Props.C71_param",
    "Verif.Props.C71_mod",
    "Verif.Props.C71_points_determined",
    "Verif.Props.C71_param_determined",
    "Verif.Props.C71_mod_determined"
   ],
   "note": "The reader is a state machine in Spec/Output, independent of the printer. The hypotheses on the linear form (defined, positive denominator) are the conclusion of C57_form_partial. The decimal representation is that of mpz_out_str and %d for numbers in range."
  },
  {
   "property": "C72",
   "status": "proved",
   "theorems": [
    "Verif.Props.C72_dense_31",
    "Verif.Props.C72_dense_17",
    "Verif.Props.C72_dense_probabilistic_31",
    "Verif.Props.C72_dense_probabilistic_17"
   ],
   "note": "DensePre says that the first entry of each row is the leftmost one: true for F4, where the leading monomials of all rows to be reduced have known pivots (normal forms always use option 2, nf.c 67). Memory model: each step of a thread is atomic (as in C47)."
  },
  {
   "property": "C73",
   "status": "proved",
   "theorems": [
    "Verif.Props.EndToEnd.C73_groebner",
    "Verif.Props.EndToEnd.C73_exists",
    "Verif.Props.EndToEnd.C73_same_ideal",
    "Verif.Props.EndToEnd.C73_zero_coefficient",
    "Verif.Props.EndToEnd.C73_repeated_monomial"
   ],
   "note": "Overflow of the 16 bit exponents during F4 is not modelled; the degrees of the reduced basis itself are a hypothesis. C73_zero_coefficient and C73_repeated_monomial are the counterexamples for inputs that are not expanded."
  },
  {
   "property": "C74",
   "status": "proved",
   "theorems": [
    "Verif.Props.LinAlgQq.C74_exact",
    "Verif.Props.LinAlgQq.C74_unique",
    "Verif.Props.LinAlgQq.C74_progress",
    "Verif.Props.LinAlgQq.C74_terminates",
    "Verif.Props.LinAlgQq.C74_ab_first",
    "Verif.Props.LinAlgQq.C74_ab_first_empty"
   ],
   "note": "C74_ab_first covers option 1; it needs a known pivot (C74_ab_first_empty), which all matrices of F4 have. Memory is sequentially consistent; loops unrolled by four are plain loops."
  },
  {
   "property": "C75",
   "status": "partial",
   "theorems": [
    "Verif.Props.LinAlgQq.C75_interreduced_partial",
    "Verif.Props.LinAlgQq.C75_shared",
    "Verif.Props.LinAlgQq.C75_reducer",
    "Verif.Props.LinAlgQq.C75_witness"
   ],
   "note": "C75_interreduced_partial: matrices without shared coefficient arrays. C75_shared, C75_reducer and C75_witness prove that the full claim is false."
  },
  {
   "property": "C76",
   "status": "partial",
   "theorems": [
    "Verif.Props.EndToEndNf.C76_normal_forms_partial",
    "Verif.Props.EndToEndNf.C76_membership_partial",
    "Verif.Props.EndToEndNf.C76_same_classes",
    "Verif.Props.EndToEndNf.C76_exists",
    "Verif.Props.EndToEndNf.C76_zero_polynomial"
   ],
   "note": "C76_normal_forms_partial and C76_membership_partial: no coefficient in the file is a multiple of p, so no polynomial is zero, and no monomial appears twice in a polynomial. C76_zero_polynomial proves that the full claim is false. 16 bit overflow of exponents inside F4 is not modelled; for elimination orders the degrees of the normal forms are assumed below 2^16, for DRL this is proved."
  },
  {
   "property": "C77",
   "status": "partial",
   "theorems": [
    "Verif.Props.ExportF4.C77_reduced_partial",
    "Verif.Props.ExportF4.C77_minimal_partial",
    "Verif.Props.ExportF4.C77_exists_partial",
    "Verif.Props.ExportF4.C77_same_ideal_partial",
    "Verif.Props.ExportF4.C77_input_modified",
    "Verif.Props.ExportF4.C77_second_call_partial",
    "Verif.Props.ExportF4.C77_zero_ideal",
    "Verif.Props.ExportF4.C77_lex_ascending",
    "Verif.Props.ExportF4.C77_lex_undefined",
    "Verif.Props.ExportF4.C77_lex_wrong"
   ],
   "note": "Proved for mon_order = 0 and for elimination blocks, arrays without zero coefficients (also modulo p), without repeated monomials and with at least one term in each generator, degrees below 2^16 in the input and in the result. Missing: mon_order = 1 without elimination block, where it is false: C77_lex_ascending, C77_lex_undefined (no defined execution for x+y with reduce_gb = 1, a row of the final reduction is written behind its end) and C77_lex_wrong (reduce_gb = 0 returns x+y, x, which is not a Groebner basis). 16 bit overflow of exponents inside F4 is not modelled."
  },
  {
   "property": "C78",
   "status": "partial",
   "theorems": [
    "Verif.Props.C78_forms",
    "Verif.Props.C78_empty",
    "Verif.Props.C78_positive",
    "Verif.Props.C78_solutions_partial",
    "Verif.Props.C78_roots",
    "Verif.Props.C78_no_output",
    "Verif.Props.C78_incomplete",
    "Verif.Props.C78_exists",
    "Verif.Props.SolveOnce.C78_squares",
    "Verif.Props.SolveOnce.C78_once"
   ],
   "note": "Composition of C58 (file), C15/C44 (F4), C23/C24 (dimension, monomial basis), C60 (matrix), C25, C51-C54, C61 (parametrization), C17/C57 (restarts), C71 (text). Assumed of the file: as in C73, more field elements than variables, no variable called A (name of the added variable), no quote in a name. Missing: nothing is said about the coordinates of the points if the degree of the printed eliminating polynomial is smaller than the dimension (not in shape position); the code prints them after tests that succeed with a probability only, and after the first random linear form without any test. C82 counts the random vectors for which the points are right in the first computation. In general the points can be wrong; C78_incomplete and C82_lost give cases where they have to be incomplete. Existence of an output is proved for the first two forms and by an example for the third; it cannot hold in general, as the executions can fail. C78_squares: the random linear form is asked for only if the square of a variable other than the last one is divisible by a leading monomial; C78_once: at most once per run."
  },
  {
   "property": "C79",
   "status": "proved",
   "theorems": [
    "Verif.Props.EndToEndQq.C79_primes",
    "Verif.Props.EndToEndQq.C79_lucky",
    "Verif.Props.EndToEndQq.C79_basis",
    "Verif.Props.EndToEndQq.C79_unlucky",
    "Verif.Props.EndToEndQq.C79_zero"
   ],
   "note": "Composition of C58 (file), C15, content removal (C76), C66 (trace), C62-C64 (storage and lifting), C70 (text), and of the theorem that a reduced Groebner basis over the rationals reduces well modulo all but finitely many primes. The printed polynomials are confirmed, not proved: equality holds unless a coefficient is large (as in C62). Execution that prints: example with lucky primes; C79_unlucky is an execution whose output is no Groebner basis. Termination of the loop over the primes is not proved."
  },
  {
   "property": "C80",
   "status": "partial",
   "theorems": [
    "Verif.Props.SolveOnce.C80_once",
    "Verif.Props.C80_system",
    "Verif.Props.C80_variant",
    "Verif.Props.C80_good",
    "Verif.Props.C80_empty",
    "Verif.Props.C80_positive",
    "Verif.Props.C80_solutions_partial"
   ],
   "note": "C80_solutions_partial: parametrizations of smaller degree than the dimension (no shape position) are not covered, the real points are in C81; exactness is a hypothesis where a difference exceeds the product of the primes (the program confirms with one further prime only, C65). Hypotheses: no variable is named A, no quotes in names. Composition of C58, C15, C66, C60 and its variant for the application of a trace, C61, C65, C39, C71 and of the theorem that shape position modulo a lucky prime holds over the rationals. Termination of the loop over the primes is not proved. C80_once: the random linear form is used at most once per run."
  },
  {
   "property": "C81",
   "status": "partial",
   "theorems": [
    "Verif.Props.C81_empty",
    "Verif.Props.C81_positive",
    "Verif.Props.C81_points_partial",
    "Verif.Props.C81_large_precision_partial",
    "Verif.Props.C81_ends_partial"
   ],
   "note": "C81_points_partial, C81_large_precision_partial, C81_ends_partial: exactness of the lifted parametrization (one further prime confirms only, C65), degree equal to the dimension of the quotient ring, and for a given precision the distance of the roots and the safe evaluation are hypotheses; without them the boxes can be wrong (C54). The precision of C81_large_precision_partial is not bounded explicitly. Hypotheses as for C80. Composition of C80 with C53, C54 and C71. Termination of the loop over the primes is not proved."
  },
  {
   "property": "C82",
   "status": "proved",
   "theorems": [
    "Verif.Props.C82_lost",
    "Verif.Props.C82_lost_run",
    "Verif.Props.C82_elements",
    "Verif.Props.C82_points",
    "Verif.Props.C82_exact"
   ],
   "note": "C82_elements splits a run of C78 at the random elements of the last computation; C82_points, C82_exact count the bad vectors for fixed factors and fixed system; the distribution of rand() is not modelled. After a random linear form has been added the code no longer requires that the squares of the variables are in the monomial basis, so that coordinates may be unverified; nothing is claimed then. C82_lost and C82_lost_run: the finding. Assumptions on the file as for C78."
  },
  {
   "property": "C83",
   "status": "proved",
   "theorems": [
    "Verif.Props.C83_success",
    "Verif.Props.C83_stable"
   ],
   "note": "The distribution of rand() is not modelled: the bad vectors are counted. UbV, UbAttemptV list the undefined behaviour of the model behind F4: in the computation of the matrix, for characteristic 2, for large primes, in fglm. F4 itself is free of it by C44/C77. Assumptions on the file as for C78. The condition on the staircase is stated for the ideal (Spec/Stair.lean) and is the one of C60."
  },
  {
   "property": "C84",
   "status": "partial",
   "theorems": [
    "Verif.Props.C84_input",
    "Verif.Props.C84_system",
    "Verif.Props.C84_defined",
    "Verif.Props.C84_empty",
    "Verif.Props.C84_positive",
    "Verif.Props.C84_solutions_partial",
    "Verif.Props.C84_ends_partial",
    "Verif.Props.C84_unterminated",
    "Verif.Props.C84_added",
    "Verif.Props.C84_generic_undefined",
    "Verif.Props.C84_prime_undefined"
   ],
   "note": "Composition with C80/C81. C84_input: every list of pairs of coefficient and exponent vector with positive denominators is meant by the specification. Partial: enclosure needs the conditions of C81 (exact parametrization, roots apart, Horner without overflow of the shift), and the primes have to be good. Return values -2 and -3 of the tracer and the text that is printed besides are left out; a second -4 restarts the same computation. print_gb different from 0 is not covered (dim and dquot are uninitialised then). C84_generic_undefined and C84_prime_undefined: the findings."
  },
  {
   "property": "C85",
   "status": "proved",
   "theorems": [
    "Verif.Props.ExportQq.C85_basis",
    "Verif.Props.ExportQq.C85_zero"
   ],
   "note": "C85_basis: composition of the import from arrays (C84), the core of C79 and the export of C63. C85_zero: finding, a coefficient zero in every generator ends the process with exit(1). Only mon_order 0 (C77 shows that lex imports are sorted by another order) and truncate_lifting 0. The coefficients are allocated by malloc, not by the caller's mallocp (by reading only)."
  },
  {
   "property": "C86",
   "status": "proved",
   "theorems": [
    "Verif.Props.ExportQq.C86_leads",
    "Verif.Props.ExportQq.C86_same",
    "Verif.Props.ExportQq.C86_unlucky"
   ],
   "note": "C86_leads, C86_same (independent of the lucky prime and of the order of sorted generators). C86_unlucky: for x^2 + 1073741826 y^2, x y + y^2 and the prime 2^30 + 3 the leading monomial of y^3 is not printed nor a multiple of a printed one."
  },
  {
   "property": "C87",
   "status": "proved",
   "theorems": [
    "Verif.Props.EndToEndLm.C87_leads",
    "Verif.Props.EndToEndLm.C87_exists",
    "Verif.Props.EndToEndLm.C87_same_ideal",
    "Verif.Props.EndToEndLm.C87_unit"
   ],
   "note": "C87_leads (both cases), C87_exists, C87_same_ideal. C87_unit: finding, for x and x+1 modulo 101 the printed list is empty although the comment announces one element. The assumptions are those of C73."
  },
  {
   "property": "C88",
   "status": "proved",
   "theorems": [
    "Verif.Props.C88_every",
    "Verif.Props.C88_settings",
    "Verif.Props.C88_ends",
    "Verif.Props.C88_ranges",
    "Verif.Props.C88_exact",
    "Verif.Props.C88_reads",
    "Verif.Props.C88_untouched",
    "Verif.Props.C88_same_file",
    "Verif.Props.C88_binary_only",
    "Verif.Props.C88_I",
    "Verif.Props.C88_wraps"
   ],
   "note": "C88_every, C88_settings, C88_ends, C88_ranges, C88_exact, C88_reads, C88_untouched. Findings: C88_same_file (-o with the name of the input empties the input before it is read), C88_binary_only (-F without -f is accepted and leads to a null pointer), C88_I (-I takes a value although the help text shows none), C88_wraps (values are reduced modulo 2^32 before the range checks). getopt is modelled as that of the GNU C library without POSIXLY_CORRECT; two paths are the same file only if they are equal strings."
  },
  {
   "property": "C89",
   "status": "proved",
   "theorems": [
    "Verif.Props.C89_basis",
    "Verif.Props.C89_leads",
    "Verif.Props.C89_solve",
    "Verif.Props.C89_normal_forms",
    "Verif.Props.C89_basis_rational",
    "Verif.Props.C89_leads_rational",
    "Verif.Props.C89_solve_rational",
    "Verif.Props.C89_groebner",
    "Verif.Props.C89_independent",
    "Verif.Props.C89_membership",
    "Verif.Props.C89_needs_input",
    "Verif.Props.C89_rational_ignores",
    "Verif.Props.C89_signatures_first",
    "Verif.Props.C89_unit"
   ],
   "note": "C89_basis, C89_leads, C89_solve, C89_basis_rational, C89_leads_rational, C89_solve_rational: the executions of the program are exactly those of the composed models. C89_groebner, C89_independent: the composed statement over prime fields. C89_normal_forms, C89_membership: normal forms. C89_needs_input. C89_unit: a concrete command line. Findings: C89_rational_ignores, C89_signatures_first. The paths of -S, -C, -q and the options -l, -N, -L, -u, -v are not modelled here."
  },
  {
   "property": "C90",
   "status": "partial",
   "theorems": [
    "Verif.Props.EndToEndSat.C90_between_partial",
    "Verif.Props.EndToEndSat.C90_leads_partial",
    "Verif.Props.EndToEndSat.C90_constant",
    "Verif.Props.EndToEndSat.C90_silent",
    "Verif.Props.EndToEndSat.C90_small",
    "Verif.Props.EndToEndSat.C90_not_saturated",
    "Verif.Props.C90_program",
    "Verif.Props.C90_delivered_partial",
    "Verif.Props.C90_empty",
    "Verif.Props.C90_command"
   ],
   "note": "C90_between_partial: the text is the reduced basis of an ideal between I and its saturation. C90_leads_partial: with -g 1 its leading monomials. C90_program, C90_delivered_partial: the same from the command line to the output file. C90_constant, C90_silent, C90_empty, C90_small. C90_command: a concrete command line. Partial: that the result is the saturation is false of the code (C90_not_saturated: for x*y and y the program may write x*y). The form of the text is stated for degrees below 2^16 in the basis."
  },
  {
   "property": "C91",
   "status": "proved",
   "theorems": [
    "Verif.Props.C91_degree",
    "Verif.Props.C91_truncated",
    "Verif.Props.C91_kept",
    "Verif.Props.C91_null",
    "Verif.Props.C91_too_small",
    "Verif.Props.C91_finite",
    "Verif.Props.C91_ideal",
    "Verif.Props.C91_not_closed"
   ],
   "note": "C91_truncated, C91_kept: the rows. C91_ideal: the same in terms of the standard monomials of the ideal. C91_degree: the bound of the degree. C91_null, C91_finite. Findings: C91_too_small, C91_not_closed. The matrix and the parametrization of the colon computation are not modelled."
  },
  {
   "property": "C92",
   "status": "partial",
   "theorems": [
    "Verif.Props.C92_compare",
    "Verif.Props.C92_confused",
    "Verif.Props.C92_search",
    "Verif.Props.C92_constant",
    "Verif.Props.C92_vector_partial",
    "Verif.Props.C92_moved",
    "Verif.Props.C92_dropped",
    "Verif.Props.C92_single"
   ],
   "note": "C92_vector_partial: the entries are the coefficients if no two different monomials are confused and the second greatest monomial is a row if the greatest one is. C92_compare: what the comparison decides. C92_search: the search before is safe exactly if there are at least five terms and the five smallest are rows. The full claim is false of the code: C92_confused, C92_moved, C92_dropped, C92_single, C92_constant."
  },
  {
   "property": "C93",
   "status": "partial",
   "theorems": [
    "Verif.Props.C93_classify",
    "Verif.Props.C93_fill_partial",
    "Verif.Props.C93_overflow",
    "Verif.Props.C93_cases",
    "Verif.Props.C93_overflow_squares",
    "Verif.Props.C93_read_iff",
    "Verif.Props.C93_read"
   ],
   "note": "C93_classify: the first loop. C93_fill_partial: the second loop, if no row is mapped to a standard monomial that is no row. C93_cases: such a monomial has a degree above the bound. The full claim is false of the code: C93_overflow (then the second loop always leaves an array), C93_overflow_squares, C93_read_iff (when exactly the first loop reads behind an array), C93_read. The entries of the dense rows are in C94 (elements of the basis) and C92 (the loop for normal forms is the same)."
  },
  {
   "property": "C94",
   "status": "partial",
   "theorems": [
    "Verif.Props.C94_row_partial",
    "Verif.Props.C94_own_leading",
    "Verif.Props.C94_own_leading_three"
   ],
   "note": "C94_row_partial: right if the leading monomial is no row, and no two different monomials are confused by the comparison (C92_compare); the terms of the elements before do no harm, as they are smaller. The full claim is false of the code: C94_own_leading, C94_own_leading_three (the leading monomial itself is written to the entry of another row)."
  },
  {
   "property": "C95",
   "status": "partial",
   "theorems": [
    "Verif.Props.C95_loop",
    "Verif.Props.C95_right_partial",
    "Verif.Props.C95_full",
    "Verif.Props.C95_early",
    "Verif.Props.C95_square",
    "Verif.Props.C95_one_row"
   ],
   "note": "C95_loop: termination and bounds for all degrees; the last tentative degree is greater than the degree of the guess, or the number of rows. C95_right_partial: the polynomial is right if the order of the recurrence is at most the last tentative degree; C95_full: in particular if the loop does not stop early (always for at most four rows). The full claim is false of the code: C95_early (eight zeros give the polynomial 1, whatever follows), C95_square (the degree of the square-free part is compared, so the loop can end although the minimal polynomial of the computed terms has the full tentative degree). The start vector is random in the code (vecinit), so both need special terms; the model is for all sequences. C95_one_row: with one row, the polynomial is read from outside of an array."
  },
  {
   "property": "C96",
   "status": "partial",
   "theorems": [
    "Verif.Props.C96_start",
    "Verif.Props.C96_avx_partial",
    "Verif.Props.C96_avx_overflow",
    "Verif.Props.C96_portable_partial",
    "Verif.Props.C96_portable_overflow",
    "Verif.Props.C96_init_read",
    "Verif.Props.C96_term",
    "Verif.Props.C96_product_partial",
    "Verif.Props.C96_vectors_partial",
    "Verif.Props.C96_terms_partial"
   ],
   "note": "C96_start: the entries are right modulo p and below 2p. C96_avx_partial, C96_product_partial, C96_vectors_partial, C96_terms_partial: for p at most 2^30 everything is right with AVX2, although rows that copy an entry never reduce it. The full claim is false of the code: C96_avx_overflow (eight products overflow 64 bits, p = 1224736769, entries from values of rand()). Without AVX2: C96_portable_partial (right or signed overflow), C96_portable_overflow. C96_term holds for all accepted primes. C96_init_read: the initialization reads behind the start vector exactly if there are fewer than 2*nvars rows (the values are overwritten later)."
  },
  {
   "property": "C97",
   "status": "partial",
   "theorems": [
    "Verif.Props.C97_result",
    "Verif.Props.C97_all_partial",
    "Verif.Props.C97_never_checked",
    "Verif.Props.C97_few_variables",
    "Verif.Props.C97_null"
   ],
   "note": "C97_result, C97_all_partial: for any marks, the number and the message tell which of the marked coordinates passed. The full claim is false of the code: C97_never_checked (msolve -C passes an array of zeros, so nothing is compared and the message is always that all seem correct, for at least three variables), C97_few_variables, C97_null (after two of the messages the pointer NULL is read). The polynomials that are compared are parameters of the model."
  },
  {
   "property": "C98",
   "status": "partial",
   "theorems": [
    "Verif.Props.C98_state",
    "Verif.Props.C98_full_degree",
    "Verif.Props.C98_coordinate_partial"
   ],
   "note": "C98_state: what the loop leaves. C98_coordinate_partial: the claim, if the loop is left early (the degree of the square-free part is smaller than the tentative degree). The full claim is false of the code: C98_full_degree (for a square-free minimal polynomial whose degree is the number of rows, the minimal polynomial has been replaced by 1 by nmod_berlekamp_massey_set_prime, the inversion fails and the pointer NULL is read). The functions of FLINT are modelled as the copies in berlekamp_massey.c."
  }
 ]
}