# Design

Target: msolve at the pinned commit in /repo (C).  Model and proofs: Lean 4.33 + Mathlib, in /verif/lean.

## Approach

Every C function under study is transcribed to a total Lean function over `Int`/`Nat`/`List`/`Option`/structures; every
definition carries a comment citing the file and lines in /repo.  GMP integers (`mpz_t`) are `Int`.  Machine
integers are modelled with their wrap-around, or with an explicit range predicate, where the property is about overflow;
elsewhere the comment of the module says that they are unbounded.
Loops are structural or well-founded recursion.  Undefined behaviour, `exit` and non-termination are explicit outcomes
(`none`, or a constructor of its own), never totalised away.
Specifications are stated with Mathlib notions (`Polynomial.eval`, `Int.ModEq`, `MvPolynomial`, `MonomialOrder`, real
roots, ...) or with the small definitions in `Verif/Spec/*.lean`, which do not import the models.

Layout: `Verif/X.lean` holds the model of one part of the code and lemmas about it, `Verif/Props/X.lean` the property theorems
`Cnn_*` together with `example`s that show a non-trivial case meeting the hypotheses.

When a property is false of the code, the negation is proved with a concrete witness that runs through the model, and what
remains true is proved under a name with the suffix `_partial`.  The statement of the property in properties.jsonl is kept.

## Trusted base

- Lean's kernel.  The theorems depend on no axioms other than `propext`, `Classical.choice` and `Quot.sound`.  There are
  no own axioms, no `sorry`, no `native_decide`, no `bv_decide`.  `decide +kernel` is used for concrete witnesses only.
- The transcription of the C code into Lean.  It was made by reading; nothing was compiled or run.
- The external libraries:
  - GMP (`mpz_*`, `mpq_*`) computes exactly what its manual says.
  - FLINT's `nmod_poly_*` arithmetic is the arithmetic of the polynomial ring over the prime field; `fmpz_poly_mul` is the product.
    `n_invmod` (C03: `InvSpec`), `nmod_poly_hgcd` (C25: `HgcdOk`), `nmod_poly_factor_squarefree` (C25: `SqfOk`),
    `nmod_poly_xgcd` (C53), `fmpz_multi_CRT_ui` (C62: `McrtSpec`) enter as hypotheses with these names, each shown satisfiable (by an `example` or a theorem); `n_gcdinv`
    (C55) is defined as the inverse modulo a prime.
  - `qsort`/`sort_r` return some sorted permutation; no stability is assumed.
  - C library: `strtol`, `strchr`, `getline`, `getdelim`, `isspace` in the C locale.
- Memory allocation succeeds (except in C11, where failure is an outcome).  In C47 memory is sequentially consistent and
  compare-and-swap is atomic; all interleavings of the threads are covered.

## Modelled code

| part | source | modules |
|---|---|---|
| arithmetic | neogb/tools.h, fglm/inner-product.c, fglm/matrix-mult.c, fglm/linalg-fglm.c, crt/*.c, msolve/primes.c | ModInverse, Barrett, MatVec, CRT, RatRecon, VecRecon, Primes |
| monomials | neogb/hash.c, neogb/order.c, neogb/io.c (layout) | Orders, DivMask, Hash, Lcm |
| input and output of the F4 library | neogb/io.c, neogb/engine.c, neogb/basis.c | Import, Normalize, Content |
| F4 | neogb/update.c, neogb/symbol.c, neogb/convert.c, neogb/la_ff_*.c (exact sparse), neogb/f4.c | Pairs, Symbolic, Convert, RowReduce, Echelon, F4*, Redundant, Groebner* |
| normal forms | neogb/nf.c, neogb/symbol.c 449-488, neogb/convert.c 552-630 | NormalForm |
| quotient ring | msolve/hilbert.c 61-305, 3471-3883 | Hilbert, MulMatrix |
| FGLM | fglm/berlekamp_massey.c, fglm/fglm_core.c, msolve/linear.c | BM, BMSeq, Hankel, Fglm, FglmParam, LinForms |
| univariate real roots | usolve/*.c | U* |
| points | usolve/evaluate.c, msolve/msolve.c 2654-3305 | RealPoints, RealIv, RealBox, RealRoot, RealAll |
| driver | msolve/msolve.c 121-180, 428-707, 913-940, 1398-1490, 2254-2480, 3388-3423, 4085-4140 | VarOrder, Lift |
| lifting of Groebner bases | msolve/lifting-gb.c 97-136, 798-1118, 1241-1472 | LiftGB |
| storing and exporting lifted bases | msolve/hilbert.c 1296-1398, 3964-3978, msolve/lifting-gb.c 440-554, 588-600, 747-789, 1503-1580 | LiftStore, ElimBasis |
| lifting of parametrizations | msolve/msolve.c 776-1000, 1063-1135, 1172-1395, 1451-1490, 2160-2250, 2395-2480, msolve/lifting.c 405-440, 532-704 (without matrix lifting) | ParamLift |
| tracer | neogb/tools.c 41-200, neogb/f4.c 413-562, 690-720, neogb/la_ff_32.c 360-369, 1026-1036, 2588-2763, neogb/symbol.c 632-703, neogb/modular.c 44-63 | TraceLin, Trace, TraceRun, TraceHom |
| batches of primes | msolve/msolve.c 1664-1807, 2258-2430, neogb/f4.c 667-733 (control flow and error handling) | Batch |
| probabilistic linear algebra | neogb/la_ff_32.c 2299-2499 | ProbLA |
| saturation | neogb/f4sat.c, neogb/la_ff_32.c 2765-3010 | SatKernel, Saturate, SaturateKernel, SaturateProof, SaturateTest |
| printing of rational bases | msolve/lifting-gb.c 277-374, msolve/iofiles.c 67-121 | PrintQq |
| printing of the solutions | msolve/msolve.c 81-95, 122-228, 2591-2652, 3447-3510, fglm/fglm_core.c 102-116 | Output |
| dense linear algebra | neogb/la_ff_32.c 1821-2016, 2028-2279, 3271-3500, 3678-3886, 4105-4150 | DenseLA, DenseProb |
| whole path for -g 2 over prime fields | msolve/main.c 343-483, msolve/msolve.c 1500-1590, 1897-2115, 3307-3345, 4035-4062, msolve/iofiles.c 157-360 | EndToEnd |
| linear algebra over Q | neogb/la_qq.c 24-877 | EchelonQq |
| whole path for -n | msolve/msolve.c 4148-4233, iofiles.c 314-337 | EndToEndNf |
| library call export_f4 | neogb/f4.c 767-851, io.c 480-592 | ExportF4 |
| complete run over prime fields | msolve/msolve.c 880-911, 1514-1648, 2060-2160, 3307-3420, 4040-4148, fglm_core.c 1231-1361, 1511-1700 | Solve |
| complete run of -g 2 over the rationals | msolve/lifting-gb.c 560-796, 1144-1501, 1582-1755, msolve.c 4708-4738, io.c 374-403, basis.c 377-459 | EndToEndQq |
| complete computation of a parametrization over the rationals | msolve/msolve.c 1514-1808, 1940-2500, 3307-3525, 4040-4148, fglm_core.c 1712-1825, hilbert.c (matrix for the application of a trace) | SolveQ, SolveQImg, MatApply |
| complete computation of the real solutions | msolve/msolve.c 3378-3419 with the above | SolveQ, RealUniform, Props/SolveReal |
| random vectors outside shape position | fglm/fglm_core.c 959-1330 | RandomForm, SolveRandom, Props/SolveRandom, Props/SolveLost |
| random vectors in shape position | fglm/fglm_core.c 150-420, 1511-1700 | RandomShape, SolveUb, Props/SolveShape |
| library function msolve_julia | msolve/msolve.c 4708-5108 | Julia, Spec/JuliaArrays, Props/Julia, Props/JuliaEx |
| export_groebner_qq, -g 1 over the rationals | msolve/lifting-gb.c 1503-1580, 1687-1860 | ExportQq, Spec/BasisArrays, Props/ExportQq |
| -g 1 over prime fields | msolve/iofiles.c 157-252, 339-360 | EndToEndLm, Spec/LeadHeader, Props/EndToEndLm |
| command line | msolve/main.c 150-440 | Options, Spec/CommandLine, Props/Options |
| program | msolve/main.c 343-483, choice of the computation in msolve.c 3527-4835 | Program, Spec/Request, Props/Program |
| saturation, file to text | msolve.c 3645-3737, f4sat.c 494-768 | EndToEndSat, ProgramSat, Props/EndToEndSat, Props/ProgramSat |
| colon, staircase | hilbert.c 150-160, 314-486, msolve.c 3896-3921 | Colon, Props/Colon |
| colon, vector | hilbert.c 580-638, 925-955, 2073-2089 | ColonVec, Props/ColonVec |
| colon, matrix | hilbert.c 501-524, 2090-2170, 2257-2317, 2341-2419 | ColonMat, Props/ColonMat |
| colon, dense rows | hilbert.c 846-884 | ColonPoly, Props/ColonPoly |
| colon, sequence | fglm_core.c 907-935, 1827-1957 | ColonSeq, Props/ColonSeq |
| colon, products | fglm_core.c 520-575, 1485-1506, 1884-1930 | ColonStart, Props/ColonStart |
| colon, report | fglm_core.c 1363-1461, 2085-2182, msolve.c 3964-3981 | ColonCheck, Props/ColonCheck |
| colon, parametrizations | fglm_core.c 1117-1155, 1192-1225, 1363-1399, 1901-1956 | ColonParam, Props/ColonParam |
| text | msolve/iofiles.c 21-63, 157-312, 362-948 | Parse, ReadFile |

## Not modelled

- F4: dense linear algebra over 8 and 16 bit primes (the same code up to the types) and option 43, degree
  truncation, signature based variant (sba.c).
- Multiplication matrices for colon ideals (hilbert.c from 306 on, other than C45, C60, C91-C98), colon ideals in fglm_core.c, the branch of
  invert_hankel for a zero last entry (an own outcome; it reads outside an array, C52), lifting of matrices (lifting.c other than C56).
- usolve: several threads, `search` other than 0, flags other than the ones the solver passes.
- Command line handling, verbose output, timing.

Not expressible here: running time and memory consumption, and properties of the libraries named above.

## Per property

- **C01** Modular inverses are correct and never overflow.
  Model the three extended-Euclid loops over Int with the loop as a well-founded recursion returning the trace bound; `inRange` predicate for int16/int32/int64 on all intermediates. Proof: loop invariant d*val = a, c*val = b (mod p), |c|,|d| <= p.
  Status: proved (Props/Arith.lean): C01_modInverse32, C01_modInverse16, C01_modInverse8.
  mod_p_inverse_8/16/32 with overflow of the signed locals as a distinct outcome.
- **C02** Barrett reduction returns the exact remainder.
  Model on Nat with explicit 64-bit wrap (mod 2^64) of t1*preinv and t2*p; prove result = n % p.
  Status: proved (Props/Arith.lean): C02_barrett, C02_barrett_extended, C02_barrett_rec, C02_addmod, C02_mulmod, C02_preinv_as_written_wrong, C02_preinv_as_written.
  Exact on the documented range; the inverse passed by fglm_core.c (C xor instead of power) is shown wrong in C02_preinv_as_written_wrong.
- **C03** Chinese remaindering is correct.
  Model precomputation and step over Int; prove congruences, range, uniqueness, and iteration over prime lists by induction.
  Status: proved (Props/Arith.lean): C03_crt_step, C03_crt_recovers.
  FLINT's n_invmod is a parameter with assumed specification InvSpec.
- **C04** Rational reconstruction is sound and complete.
  Model the truncated Euclidean remainder loop; prove invariants (determinant, monotone cofactors), soundness and the classical uniqueness theorem.
  Status: proved (Props/Arith.lean): C04_ratrecon, C04_ratreconwden, C04_mpq_reconstruct.
  The code's bounds are non-strict (|n|<=N, d<=D) although the comment says strict.
- **C05** Vector rational reconstruction returns one common denominator for all coefficients.
  Model the loop accumulating the lcm, on top of C04.
  Status: proved (Props/Arith.lean): C05_vector_reconstruction, C05_vector_complete, C05_vector_with_denominator.
  Both variants; the update of *maxrec on failure is not modelled.
- **C06** The primality test never accepts a composite number and next_prime returns a prime.
  Model trial division with uint32 wrap of i*i; prove soundness for all n, completeness on the range drawn from, and negations for the table entries.
  Status: partial (Props/Arith.lean): C06_accepted_is_prime, C06_decides, C06_next_prime, C06_small_inputs_wrong, C06_large_prime_rejected.
  Sound for every 32 bit input except 1; decides primality for 24 <= n < 65531^2. Outside that range the claim is false: below 24 see C06_small_inputs_wrong, and the prime 2^32 - 5 is rejected because the square in the loop bound wraps (C06_large_prime_rejected).
- **C07** The graded reverse lexicographic comparison is an admissible monomial order.
  Model comparator on internal exponent vectors; prove equality with a textbook order stated on functions Fin n -> Nat; totality, multiplicativity, well-foundedness (Dickson via Mathlib).
  Status: proved (Props/Orders.lean): C07_drl_admissible, C07_drl_comparison, C07_drl_sorting_variants, C07_drl_degree_overflow.
  Total degree below 2^16; C07_drl_degree_overflow shows the comparison is wrong above.
- **C08** The block elimination comparison is an admissible order and eliminates the first block.
  As C07 with two blocks.
  Status: proved (Props/Orders.lean): C08_be_admissible, C08_be_comparison, C08_be_eliminates, C08_be_sorting_variants.
  Total degree below 2^16.
- **C09** The lexicographic comparison is an admissible monomial order.
  As C07 with lex.
  Status: proved (Props/Orders.lean): C09_lex_admissible, C09_lex_comparison, C09_lex_sorting_variants.
- **C10** Divisibility masks never hide a divisor.
  Model divmask generation and bit test; prove soundness by induction on the bit index, completeness of the combined test.
  Status: proved (Props/Monomials.lean): C10_division_test, C10_divides, C10_find_divisor.
  For every mask threshold table; layouts with at most 32 bits, as initialisation guarantees.
- **C11** The monomial hash table stores each monomial once.
  Model table as map array + entry list, triangular probing; invariant by induction on the history; termination from the fact that triangular numbers cover Z/2^k.
  Status: proved (Props/Monomials.lean): C11_hash_consing, C11_index_stable, C11_insert_progress, C11_enlarge_progress.
  Histories of insertions and enlargements of any length; allocation failure / index exhaustion is a distinct outcome.
- **C12** The hash of a product is the sum of the hashes.
  Hash as linear form mod 2^32; theorem plus use in the table model.
  Status: proved (Props/Monomials.lean): C12_product_insertion, C12_stored_hash, C12_overflow_breaks_hash.
  Under the condition that no exponent sum exceeds 16 bits; C12_overflow_breaks_hash shows the failure beyond.
- **C13** Least common multiples and coprimality are computed correctly.
  Direct model of both layouts.
  Status: proved (Props/Monomials.lean): C13_lcm, C13_lcm_least, C13_coprime.
- **C14** Exponent vectors survive import and export.
  Direct model of set_exponent_vector/export; round-trip.
  Status: proved (Props/Import.lean): C14_round_trip, C14_degree_entries, C14_round_trip_table, C14_export_size, C14_export_zero_poly_overflow.
  Extra finding: C14_export_zero_poly_overflow (zero polynomial with elimination block writes nv+1 exponents).
- **C15** No valid generator is lost by input validation.
  Model validation + metadata + import index arithmetic; negation witness and partial theorem.
  Status: partial (Props/Import.lean): C15_valid_generator_lost, C15_imported_exactly, C15_no_generator_lost_partial.
  False in general (C15_valid_generator_lost); proved when the invalid generators come last; C15_imported_exactly gives the exact behaviour.
- **C16** Finite field coefficients are imported as canonical residues.
  Model lift; negation witness and partial theorem.
  Status: partial (Props/Import.lean): C16_coefficient_import_partial, C16_large_negative_coefficient, C16_rational_import.
  False for c < -p (C16_large_negative_coefficient); proved for -p <= c < 2^31; rational import proved.
- **C17** The coefficient representation selected for a characteristic can hold every residue.
  Model set_ff_bits with int32 argument; negation witness and partial theorem.
  Status: partial (Props/Import.lean): C17_width_partial, C17_zero, C17_large_characteristic.
  False for accepted characteristics >= 2^31 (C17_large_characteristic); proved below.
- **C18** Term sorting permutes terms without changing the polynomial.
  Model the sort as any correct sorting permutation (qsort is external: parameter) applied to the index array and the copy-back loop.
  Status: proved (Props/Import.lean): C18_sort_terms, C18_strictly_decreasing.
  sort_r (qsort) is trusted to deliver a sorting permutation.
- **C19** Row reduction modulo a prime is exact.
  Model of the dense/sparse row operations with int64 accumulators; invariant.
  Status: proved (Props/LinAlg.lean): C19_reduce_31_bit, C19_reduce_lazy, C19_reduce_17_bit_columns, C19_lazy_overflow.
  31 bit variant for all primes below 2^31 and any number of columns; lazy variants (17 bit, 16 bit, 8 bit) under the column bound ncols*(p-1)^2 < 2^63, with an overflow witness beyond it. The unused 32 bit variant (fc >= 2^31 is rejected on input), the tracer and the saturation variants are not modelled.
- **C20** Normalised rows are monic and proportional to the input.
  Direct model.
  Status: proved (Props/LinAlg.lean): C20_normalise_row, C20_normalise_initial.
  sparse matrix rows and initial basis, all three coefficient widths.
- **C21** Hash to column conversion is an order preserving bijection.
  Model of column assignment; bijection.
  Status: proved (Props/Basis.lean): C21_columns_drl, C21_columns_be, C21_columns_lex, C21_reducer_head, C21_new_rows_sorted.
  convert_hashes_to_columns and convert_columns_to_hashes; the library sort is any sorted permutation; index values 1 (no pivot) and 2 (pivot) as left by symbolic preprocessing.
- **C22** Removing redundant basis elements keeps exactly a minimal generating set of the leading ideal.
  Model loops; invariant.
  Status: proved (Props/Basis.lean): C22_remove_redundant, C22_keep_reduced.
  final_remove_redundant_elements (same code in process_redundant_elements) and the last loop of reduce_basis.
- **C23** The zero-dimensionality test is exact on minimal bases.
  Direct model; equivalence with finiteness of the staircase.
  Status: proved (Props/Hilbert.lean): C23_dimension_zero, C23_unit_ideal.
  Exact for pairwise incomparable leading monomials different from 1; C23_unit_ideal shows the answer for the unit ideal.
- **C24** The quotient monomial basis is complete and duplicate free.
  Model of the breadth-first generation with index array; refinement to the set of standard monomials.
  Status: proved (Props/Hilbert.lean): C24_monomial_basis, C24_termination.
  monomial_basis with its index bookkeeping; correctness, termination exactly in the zero-dimensional case.
- **C25** Berlekamp-Massey style reconstruction returns an annihilating polynomial of minimal degree.
  Model on Mathlib polynomials over a field, Euclid branch (hgcd external).
  Status: proved (Props/Fglm.lean): C25_invariant, C25_minpoly, C25_unique, C25_compute_minpoly, C25_squarefree.
  FLINT polynomial operations stand for ring operations; nmod_poly_hgcd and factor_squarefree enter as explicit assumptions (HgcdOk, shown satisfiable; SqfOk). compute_elim_poly calls FLINT's reduce, which takes the same steps as the modelled nmod_em_gcd.
- **C26** Polynomial evaluation at dyadic points is exact.
  Horner models over Int, spec Polynomial.eval over Rat.
  Status: proved (Props/Usolve.lean): C26_eval_dyadic, C26_eval_dyadic_sign, C26_eval_one_half, C26_eval_integer, C26_values_at_bounds.
- **C27** Taylor shift computes p(x+1), whichever algorithm is used.
  List model; spec Polynomial.comp (X+1).
  Status: proved (Props/Usolve.lean): C27_taylor_naive, C27_taylor_dac, C27_block_size, C27_degree_zero.
  Degree >= 1; for degree 0 the naive shift loops forever (C27_degree_zero). FLINT/GMP multiplication is trusted.
- **C28** Rescaling and binary content removal keep the roots.
  List model; spec on polynomials.
  Status: proved (Props/Usolve.lean): C28_rescale, C28_rescale_roots, C28_rescale_undo, C28_content.
- **C29** Division by a known dyadic root is exact.
  List model; spec factorisation.
  Status: proved (Props/Usolve.lean): C29_divide_root, C29_other_roots.
- **C30** The root bound is strict.
  Model; spec about real roots.
  Status: proved (Props/Usolve.lean): C30_root_bound, C30_no_root_code, C30_minus_one_ambiguous.
  The value -1 is also returned for polynomials with a positive root below 1/2 (C30_minus_one_ambiguous); the bound holds in every case.
- **C31** Sign variation counts, including the truncated ones, are certified.
  Model counters; spec Polynomial.signVariations; truncation error bound.
  Status: proved (Props/Usolve.lean): C31_variations, C31_truncated, C31_truncated_vs_exact, C31_descartes.
  The error bits of the truncated shift are certified for every truncation position and block size.
- **C32** Real root isolation is correct.
  Model bisection recursion with fuel (out-of-fuel distinct outcome); spec: real roots; uses Descartes (Mathlib) for 0/1 variations.
  Status: proved (Props/Usolve.lean): C32_isolation, C32_count, C32_real_roots.
  bisection_Uspensky and real_roots in full with the library's flag values (classical_algo = 0, hasrealroots = 0); search = 0, one thread.
- **C33** Root merging maps bisection cells to the right interval.
  Model; spec on intervals over Rat.
  Status: proved (Props/Usolve.lean): C33_merge_positive, C33_merge_negative.
  Exponents unbounded (the code converts bounds to int).
- **C34** Root refinement never loses the root and reaches the requested precision.
  Model QIR step; invariants.
  Status: proved (Props/Usolve.lean): C34_step, C34_loop, C34_real_roots.
  Precision >= 0 for the complete pipeline; shifts 1<<Nlog with Nlog >= 63 (undefined in C, unused value) are an arbitrary parameter.
- **C35** Interval evaluation encloses the true values.
  Model; negation + partial.
  Status: partial (Props/RealPoint.lean): C35_not_enclosing, C35_interval_total, C35_interval_partial, C35_precision_partial.
  False as stated: C35_not_enclosing gives 4x^2-6x-3 on [1,2]. Proved: no exit (C35_interval_total), enclosure and equality with the natural interval extension when no intermediate interval straddles zero (C35_interval_partial), enclosure at every point from some precision on (C35_precision_partial).
- **C36** Power tables and scalar products enclose the true values.
  Model; enclosure over Real.
  Status: proved (Props/RealPoint.lean): C36_table, C36_powers, C36_scalar_product, C36_enclosure.
  Exact value of every table entry and of the scalar product, and enclosure for all real points of the interval.
- **C37** Coordinate boxes contain the coordinate of the solution.
  Model; enclosure over Real.
  Status: proved (Props/RealPoint.lean): C37_division, C37_division_encloses, C37_exact_root.
  Exact value of the directed division in all sign cases, enclosure, and the exact-root coordinates as floor and ceiling. The whole computation of a point is C54.
- **C38** Normalising a printed point does not change it.
  Model; value preservation.
  Status: proved (Props/RealPoint.lean): C38_normalize, C38_lowest_terms, C38_display_bound, C38_display.
  Both bounds, lowest terms, and the printed text.
- **C39** Undoing a variable order change restores the input order.
  Model; involution and evaluation.
  Status: proved (Props/VarOrder.lean): C39_undo, C39_names, C39_points, C39_names_run.
  The exponent arrays are modelled flat with the index arithmetic of the code. For every sequence of failed attempts the returned points are in bijection with the solutions of the input system over any field of the characteristic, in the order of the input variables; this covers the swaps, the added linear form (powers or random) and the final reordering of the points.
- **C40** The modular check accepts a lifted parametrisation only if it reduces to the modular one.
  Model; iff.
  Status: partial (Props/Lift.lean): C40_elim, C40_elim_index, C40_param_partial, C40_points_partial, C40_high_coefficients_unchecked, C40_vanishing_denominator.
  False as stated: C40_high_coefficients_unchecked, C40_vanishing_denominator. Proved: the exact meaning of success for the eliminating polynomial (unconditional, C40_elim) and for all coordinates when no denominator vanishes modulo the prime (C40_param_partial), and the consequence for points (C40_points_partial).
- **C41** Integer content removal is exact.
  Model; gcd facts.
  Status: proved (Props/Content.lean): C41_basis, C41_unique, C41_univariate.
  Both content functions are modelled with their unrolled loops. The result is the primitive associate with positive leading coefficient, proved unique; a polynomial whose stored leading coefficient is zero is left unchanged. The precondition PRELOOP = length mod 4 is the one the import establishes. The univariate functions have no caller in the tree.
- **C42** Parsing a finite-field input line yields the polynomial that was written.
  Parser and printer over lists of characters; splitting of a line by induction over the terms, factors by position-independent lemmas.
  Status: partial (Props/Parse.lean): C42_read_partial, C42_read_rational, C42_print, C42_zero_coefficient, C42_minus_zero, C42_repeated_factor, C42_two_numbers, C42_unknown_name, C42_large_first, C42_denominator, C42_leading_plus, C42_not_reduced.
  Lines of a grammar (optional sign, optional numeral, distinct variables with optional exponents) are read as written; over prime fields under the conditions FirstNum and InnerNum on the numerals (no denominators, no zero behind the first term, bounded size), over the rationals without conditions. Printed basis elements are read back. The negations show that the conditions are needed.
- **C43** Critical pair selection takes every pair of minimal degree.
  Model; selection without cap exact; negation with cap.
  Status: proved (Props/F4.lean): C43_selection, C43_reachable, C43_class_split.
  The comment in symbol.c 263-264 (pairs with the same lcm as the last selected are also taken) is false with a cap: C43_class_split.
- **C44** The F4 loop ends with a Groebner basis.
  One round of F4 (selection, symbolic preprocessing, columns, echelon form, update) as a relation between states; invariant: every S-pair is pending, has a standard representation or is covered by the chain criterion; Buchberger's criterion; termination by Dickson's lemma.
  Status: proved (Props/F4.lean): C44_groebner, C44_progress, C44_terminates, C44_reduced.
  F4 over prime fields below 2^31, exact sparse linear algebra. The modelled rows are reduced one after the other; the orders of rows and of equal pairs are arbitrary. Not modelled: tracing, probabilistic linear algebra, degree truncation.
- **C45** Variables are linked to their linear forms.
  Model; negation/partial.
  Status: proved (Props/Param.lean): C45_linvars, C45_check, C45_set, C45_check_elimination.
  check_and_set_linear_poly reads wrong slots when an elimination block is present (C45_check_elimination); set_linear_poly is correct for every layout.
- **C46** Dense modular products are exact.
  Model accumulators.
  Status: partial (Props/Arith.lean): C46_portable_row, C46_avx_row_partial, C46_avx_row_overflow, C46_multiplication_partial, C46_multiplication_portable.
  Portable path exact for all primes < 2^31; AVX2 path exact for p <= 1518500249 (covers all primes the solver draws), false for p = 2^31-1 (C46_avx_row_overflow).
- **C47** The parallel echelon form is correct and independent of the thread schedule.
  Interleaving semantics of the threads; invariant that every pivot row and every pending row lies in the row space.
  Status: proved (Props/LinAlg.lean): C47_parallel_echelon_31, C47_parallel_echelon_17.
  exact_sparse_reduced_echelon_form_ff_32 for nf = 0 outside the final reduction step; memory is sequentially consistent in the model. The probabilistic variants are not modelled.
- **C48** The candidate array of the monomial basis computation never overflows.
  Capacity invariant of the pair array over all histories.
  Status: proved (Props/Hilbert.lean): C48_no_overflow.
  Model returns a distinct outcome for a write outside the array; proved unreachable.
- **C49** Root isolation never overflows its arrays.
  Counting the roots against the intervals.
  Status: proved (Props/Usolve.lean): C49_isolation_count.
- **C50** Root isolation terminates on square-free polynomials.
  Termination of the bisection: variations bounded on short intervals.
  Status: proved (Props/Usolve.lean): C50_isolation_ends, C50_isolation_ends_simple.
  Machine integers for k and precision unbounded.
- **C51** The result of F4 does not depend on scheduling and options.
  Uniqueness of reduced bases.
  Status: proved (Props/F4.lean): C51_deterministic.
  Same model as C44.
- **C52** Hankel systems of the shape-position branch are solved exactly or reported.
  Half-gcd identities for Hankel systems; the solution is checked against the matrix.
  Status: proved (Props/Param.lean): C52_outcome, C52_other_reads_outside, C52_solve.
  The branch of invert_hankel for a zero last entry (fglm_core.c 256-354) is an own outcome 'other' and is not modelled further. The branch for a zero last entry of the first column of the inverse (fglm_core.c 253-354) reads outside the array of the points: C52_other_reads_outside.
- **C53** The rational parametrization computed from the multiplication matrix is correct.
  Power sums of the sequence and the minimal polynomial; evaluation at the points of the variety.
  Status: proved (Props/Param.lean): C53_shape, C53_table, C53_verify.
  Shape position: every random vector. Outside shape position the characterization is exact, correctness at points needs that the variable is a polynomial in the last one up to nilpotents killed by the cofactor; the acceptance of the verification is characterized, it is not sound for every linear form.
- **C54** The real points returned are the real solutions, each once, in a box that holds it.
  Composition of C34-C37 along the loop over the roots.
  Status: partial (Props/RealPoint.lean): C54_root_lost, C54_wrong_sign, C54_points_partial, C54_large_precision_partial, C54_good.
  False as stated: C54_root_lost (a root next to a dyadic root is lost) and C54_wrong_sign (the box has the wrong sign) are runs of the model at the default precision. Proved: termination, isolation and enclosure when the roots are apart at the isolation precision and no Horner intermediate of the denominator straddles zero (C54_points_partial), and unconditionally from some precision on (C54_large_precision_partial).
- **C55** Normalising a modular image keeps its points.
  Ideal of the parametrization modulo the eliminating polynomial.
  Status: proved (Props/Lift.lean): C55_normalize, C55_points.
  FLINT products and remainders are the polynomial operations; n_gcdinv is the inverse.
- **C56** A parametrization is returned only after confirmation by an independent prime.
  Induction over the primes, reconstruction and check as parameters.
  Status: proved (Props/Lift.lean): C56_confirmed.
  The reconstruction and the check are arbitrary functions; primes are assumed pairwise different (next_prime wraps around after the last prime of 31 bits).
- **C57** The linear form printed with a parametrization is the one that was used.
  Trace of the restarts with the printed text.
  Status: partial (Props/VarOrder.lean): C57_form_partial, C57_stale_form, C57_name_clash.
  False: a failure after a random choice replaces the coefficients but the old random form is printed (C57_stale_form), and the new variable A may clash with an input name (C57_name_clash). C57_form_partial: the printed form is right if no random form was chosen or if the last restart chose it.
- **C58** Reading an input file yields the names, the characteristic and the polynomials written.
  Composition of the parser with the cutting of the file into lines and pieces.
  Status: proved (Props/Parse.lean): C58_file, C58_file_rational, C58_print, C58_lines, C58_same_line, C58_last_comma, C58_two_lines, C58_tab, C58_rejects.
  readFile models the whole of get_data_from_file on the text of the file; lines of more than 2^30 characters and sizes beyond 32 bits are not modelled.
- **C59** Normal forms are normal forms, unique, and zero exactly for ideal members.
  The rows to be reduced are kept apart from the rows of F4's matrix; invariant of the symbolic preprocessing (C44) with no marked monomials; specification of the row reduction (C25/C47) mapped to polynomials by a linear map; uniqueness from the definition of Groebner bases.
  Status: proved (Props/NormalForm.lean): C59_terminates, C59_normal_forms, C59_unique, C59_membership, C59_ideal_membership.
  Includes the composition with F4: for the basis computed by F4 from generators F the result is zero exactly for members of the ideal generated by F. Export of the results is C14 (which also records the overflow for zero results with an elimination order).
- **C60** The multiplication matrix represents multiplication by the variable in the quotient.
  Loop invariants over the merged scan of basis and staircase; rows evaluated in an arbitrary algebra where the basis vanishes; Groebner basis property for linear independence.
  Status: proved (Props/MulMatrix.lean): C60_matrix, C60_basis, C60_product.
  build_matrixn_unstable_from_bs_trace; the variant for the application of a trace is modelled for C80 (MatApply.lean). Not modelled: the variants for colon ideals and without normal forms.
- **C61** A modular computation returns a description of the ideal of the generators.
  Composition of the theorems of the parts in the quotient by the ideal of the generators; division by the minimal polynomial after substitution of the parametrization.
  Status: proved (Props/Modular.lean): C61_modular.
  Composition of C44, C24, C59, C60, C25, C52 and C53 for the shape position. FLINT functions as in C25; matrix-vector products and sequence over the field (the machine products are C46).
- **C62** A Groebner basis over Q is returned only after confirmation.
  State machine of the loop; invariant linking check1, check2, start indices, denominators and the modulus to the stored images, by induction over the events.
  Status: proved (Props/LiftGB.lean): C62_confirmed, C62_exact, C62_no_abort, C62_unreported_prime_aborts, C62_not_certified.
  Proved for the loop after the learning phase, with the F4 computations as events that deliver images. FLINT's n_invmod and fmpz_multi_CRT_ui are parameters with the hypotheses InvSpec and McrtSpec, shown satisfiable. C62_unreported_prime_aborts: a prime dropped at lifting-gb.c 768-773 is not reported, and the program stops. C62_not_certified: right images of a large coefficient are accepted as a small one, so the bound in C62_exact is needed.
- **C63** The modular bases are stored without loss.
  Staircase basis up to a degree by the invariant of C22; the search from the top finds every term, by induction over the terms; elimination theorem for the block order on exponent vectors.
  Status: proved (Props/LiftStore.lean): C63_elimination, C63_storage, C63_zero_elimination.
  Proved for reduced bases as delivered by C44 (structure ModGb). C63_zero_elimination: when the elimination ideal is zero, a row before the array is read. The name grevlex_is_less_than is wrong (it compares degrees, and entries only for equality), but the slots found are sufficient.
- **C64** The returned Groebner basis over Q reduces to the modular bases.
  Composition of C62 and C63, the export arrays by induction over the polynomials.
  Status: proved (Props/LiftStore.lean): C64_export.
  Composition of C62 and C63 with export_results_from_groebner_qq. The hypothesis on the number of elements excludes the case of C62_unreported_prime_aborts. truncate_lifting is not used.
- **C65** The lifted parametrization reduces to the modular ones.
  Invariant over the sequence of images (remaindered arrays, what is lifted and up to which prime), preserved by every step of the reconstruction; composition with the loop of C56.
  Status: proved (Props/ParamLift.lean): C65_congruent, C65_reduces, C65_confirmed, C65_exact, C65_not_certified, C65_stale_entries.
  Without matrix lifting (lift_matrix is 0 by default). The images are taken with the same lengths of the coordinates for all primes, which the code assumes in a comment; C65_stale_entries shows that the assumption is needed, C65_congruent is the statement without it. C65_not_certified: a confirmed result need not be exact.
- **C66** Bases computed with the trace of a first prime.
  The recorded rows span the new elements (history of the reducers used by each row in the interleaving model of the linear algebra); a reduced form is determined by its span; induction over the rounds for the leading monomials and the ideal. Homogeneous case: dimensions of the parts of fixed degree modulo a prime are at most those over the rationals.
  Status: proved (Props/Trace.lean): C66_learn, C66_total, C66_sound, C66_iff, C66_same, C66_homogeneous, C66_unlucky.
  The statement does not say that accepted bases are Groebner bases in general: C66_unlucky shows input where nothing is recorded modulo the first prime and the run modulo every other prime is accepted with a set that is not a Groebner basis. C66_homogeneous gives a condition under which this cannot happen.
- **C67** Rejected primes are skipped in batches of primes.
  Interleaving model of the parallel loop with the shared error variable; invariants over all reachable states; schedules as witnesses for the negative part.
  Status: partial (Props/Batch.lean): C67_no_rejected_partial, C67_one_thread_partial, C67_next_batch_crashes, C67_race.
  False of the code: a rejected prime sets nmod_params[i] to NULL for good, and the next prime of this thread which is not rejected writes through it (C67_next_batch_crashes, every execution, one thread); the error variable is shared by the threads (C67_race). Proved: everything as long as no prime is rejected (any threads), and single batches with one thread.
- **C68** The probabilistic linear algebra never invents rows and rarely loses some.
  Interleaving model of the blocks with nondeterministic draws; invariant: each successful compare-and-swap raises the dimension of the part of the block already covered; counting by an injection.
  Status: proved (Props/ProbLA.lean): C68_probabilistic_31, C68_probabilistic_17, C68_bad_draws, C68_blocks, C68_can_lose.
  That rand() delivers independent uniform numbers is not part of the model; the theorem bounds the number of bad vectors of multipliers for any space. C68_can_lose shows that rows are lost for some draws.
- **C69** F4 with saturation returns the saturation.
  Relational model of core_f4sat on top of the F4 model; invariant: the ideal of the basis lies between I and I : f^inf and the stored elements are congruent to multiples of f; kernel by an invariant on pairs of rows and multipliers; termination by noetherianity.
  Status: partial (Props/Saturate.lean, Props/SaturateWrong.lean): C69_between_partial, C69_constant, C69_test_partial, C69_kernel, C69_empty_kernel_partial, C69_terminates, C69_not_saturated, C69_test_wrong.
  The full claim is false of the code: C69_not_saturated (no pairs, no saturation step) and C69_test_wrong (the test says yes because the element is not monic) are machine-checked counterexamples. Proved for every run: the result is the reduced Groebner basis of an ideal between I and I : f^infinity; it is the saturation if the run ends with a constant, with a yes of the test for a monic element, or if the kernel for all standard monomials is empty; kernels are exact; the loops end.
- **C70** The printed rational Groebner basis determines the basis.
  The printed line is shown to be a line of the grammar of Spec/Text for a list of terms computed from the polynomial; then the correctness of the parser gives the round trip. The form of the polynomials comes from the invariant of the lifting loop.
  Status: proved (Props/PrintQq.lean): C70_poly, C70_basis, C70_leads, C70_run, C70_unit.
  Round trip against the model of the parser (C42). C70_run shows that every polynomial has the required form when the lifting ends; the unit ideal, which is not lifted, is C70_unit. The text of a vanishing coefficient with a denominator would be malformed (example beside the theorems); C70_run excludes it.
- **C71** The printed solutions determine the result.
  The printer as functions into lists of characters; a compositional predicate (reading this text at the beginning of an entry gives these entries, from every state of the reader) for numbers, fractions, powers, names, lists; then injectivity of the value.
  Status: proved (Props/Output.lean): C71_empty, C71_dim, C71_points, C71_param, C71_mod, C71_points_determined, C71_param_determined, C71_mod_determined.
  The reader is a state machine in Spec/Output, independent of the printer. The hypotheses on the linear form (defined, positive denominator) are the conclusion of C57_form_partial. The decimal representation is that of mpz_out_str and %d for numbers in range.
- **C72** The dense variants of the linear algebra give the same rows.
  Threads as state machines with shared pivots; invariants for pivots and threads (entries between 0 and p, a ghost for the last lost column which moves right), a decreasing bound for termination; then the interreduction of dense rows and uniqueness of reduced echelon forms.
  Status: proved (Props/DenseLA.lean): C72_dense_31, C72_dense_17, C72_dense_probabilistic_31, C72_dense_probabilistic_17.
  DensePre says that the first entry of each row is the leftmost one: true for F4, where the leading monomials of all rows to be reduced have known pivots (normal forms always use option 2, nf.c 67). Memory model: each step of a thread is atomic (as in C47).
- **C73** From the input file to the printed Groebner basis.
  Composition of the models: reading (C58), import (C15, C17, C18), normalisation (C20), F4 (C44, C51), printing (C58). The generators are unit multiples of the polynomials written; uniqueness of the reduced basis gives the equality of the texts.
  Status: proved (Props/EndToEnd.lean): C73_groebner, C73_exists, C73_same_ideal, C73_zero_coefficient, C73_repeated_monomial.
  Overflow of the 16 bit exponents during F4 is not modelled; the degrees of the reduced basis itself are a hypothesis. C73_zero_coefficient and C73_repeated_monomial are the counterexamples for inputs that are not expanded.
- **C74** Linear algebra over the rationals is exact.
  Model of la_qq.c with one thread state per row. Invariant: a nonzero multiple of the row minus the vector of the state is a combination of pivots. Primitive reduced echelon forms over Z are unique.
  Status: proved (Props/LinAlgQq.lean): C74_exact, C74_unique, C74_progress, C74_terminates, C74_ab_first, C74_ab_first_empty.
  C74_ab_first covers option 1; it needs a known pivot (C74_ab_first_empty), which all matrices of F4 have. Memory is sequentially consistent; loops unrolled by four are plain loops.
- **C75** Final reduction of a basis over the rationals.
  Invariant of the loop over the columns for rows with different coefficient arrays; for shared arrays, the array holds zeros after its first use, so that the next row is NULL.
  Status: partial (Props/LinAlgQq.lean): C75_interreduced_partial, C75_shared, C75_reducer, C75_witness.
  C75_interreduced_partial: matrices without shared coefficient arrays. C75_shared, C75_reducer and C75_witness prove that the full claim is false.
- **C76** Normal forms: from the input file to the output.
  Composition of the models of C15, C44, C58, C59 and C73: import without normalisation for the polynomials to be reduced, then normal form modulo a Groebner basis, uniqueness, and printing. For DRL normal forms do not have larger degrees.
  Status: partial (Props/EndToEndNf.lean): C76_normal_forms_partial, C76_membership_partial, C76_same_classes, C76_exists, C76_zero_polynomial.
  C76_normal_forms_partial and C76_membership_partial: no coefficient in the file is a multiple of p, so no polynomial is zero, and no monomial appears twice in a polynomial. C76_zero_polynomial proves that the full claim is false. 16 bit overflow of exponents inside F4 is not modelled; for elimination orders the degrees of the normal forms are assumed below 2^16, for DRL this is proved.
- **C77** The library function export_f4: from the input arrays to the output arrays.
  The arrays are read back with running offsets; the import is compared with that of a text with the same terms, so that the composition of C73 applies; export through the model of C14. The lexicographical witnesses are executions of the whole model; for the undefined one all executions are followed.
  Status: partial (Props/ExportF4.lean): C77_reduced_partial, C77_minimal_partial, C77_exists_partial, C77_same_ideal_partial, C77_input_modified, C77_second_call_partial, C77_zero_ideal, C77_lex_ascending, C77_lex_undefined, C77_lex_wrong.
  Proved for mon_order = 0 and for elimination blocks, arrays without zero coefficients (also modulo p), without repeated monomials and with at least one term in each generator, degrees below 2^16 in the input and in the result. Missing: mon_order = 1 without elimination block, where it is false: C77_lex_ascending, C77_lex_undefined (no defined execution for x+y with reduce_gb = 1, a row of the final reduction is written behind its end) and C77_lex_wrong (reduce_gb = 0 returns x+y, x, which is not a Groebner basis). 16 bit overflow of exponents inside F4 is not modelled.
- **C78** From the input file to the printed solutions over a prime field.
  The states of the generators during the restarts are related to the ideal of the file by isomorphisms of the quotients that respect the names of the variables; one computation is the composition of the earlier theorems; outside shape position the eliminating polynomial divides the minimal polynomial of the multiplication, so that its roots extend to algebra maps of the quotient. The text is read back with the reader of C71.
  Status: partial (Props/Solve.lean, Props/SolveExists.lean, Props/SolveOnce.lean): C78_forms, C78_empty, C78_positive, C78_solutions_partial, C78_roots, C78_no_output, C78_incomplete, C78_exists, C78_squares, C78_once.
  Composition of C58 (file), C15/C44 (F4), C23/C24 (dimension, monomial basis), C60 (matrix), C25, C51-C54, C61 (parametrization), C17/C57 (restarts), C71 (text). Assumed of the file: as in C73, more field elements than variables, no variable called A (name of the added variable), no quote in a name. Missing: nothing is said about the coordinates of the points if the degree of the printed eliminating polynomial is smaller than the dimension (not in shape position); the code prints them after tests that succeed with a probability only, and after the first random linear form without any test. C82 counts the random vectors for which the points are right in the first computation. In general the points can be wrong; C78_incomplete and C82_lost give cases where they have to be incomplete. Existence of an output is proved for the first two forms and by an example for the third; it cannot hold in general, as the executions can fail. C78_squares: the random linear form is asked for only if the square of a variable other than the last one is divisible by a leading monomial; C78_once: at most once per run.
- **C79** From the input file to the printed Groebner basis over the rationals.
  The generators with integer coefficients are related to those in the file by units; every computation modulo a lucky prime delivers the image of the reduced Groebner basis over the rationals (uniqueness of the reduced basis), so that the images that are lifted are those of one basis; then C62, C64 and C70. Buchberger representations have finitely many denominators, which gives the finiteness of the unlucky primes.
  Status: proved (Props/EndToEndQq.lean, Props/EndToEndQqEx.lean): C79_primes, C79_lucky, C79_basis, C79_unlucky, C79_zero.
  Composition of C58 (file), C15, content removal (C76), C66 (trace), C62-C64 (storage and lifting), C70 (text), and of the theorem that a reduced Groebner basis over the rationals reduces well modulo all but finitely many primes. The printed polynomials are confirmed, not proved: equality holds unless a coefficient is large (as in C62). Execution that prints: example with lucky primes; C79_unlucky is an execution whose output is no Groebner basis. Termination of the loop over the primes is not proved.
- **C80** From the input file to the printed parametrization over the rationals.
  Every image that is used is the image of the exact parametrization over the rationals: the trace delivers the reduced Groebner basis modulo a lucky prime, the matrix of the application is the one of C60, shape position and the coordinates are unique; then C65 for the lifting and C71 for the text. The states between the restarts are those of C39, with ideals related by an isomorphism of the quotient rings.
  Status: partial (Props/SolveOnce.lean, Props/SolveQ.lean): C80_once, C80_system, C80_variant, C80_good, C80_empty, C80_positive, C80_solutions_partial.
  C80_solutions_partial: parametrizations of smaller degree than the dimension (no shape position) are not covered, the real points are in C81; exactness is a hypothesis where a difference exceeds the product of the primes (the program confirms with one further prime only, C65). Hypotheses: no variable is named A, no quotes in names. Composition of C58, C15, C66, C60 and its variant for the application of a trace, C61, C65, C39, C71 and of the theorem that shape position modulo a lucky prime holds over the rationals. Termination of the loop over the primes is not proved. C80_once: the random linear form is used at most once per run.
- **C81** From the input file to the printed boxes of the real solutions.
  The run of C80 with the isolation of C54 applied to the lifted parametrization. The exact parametrization satisfies the hypotheses of C54 (its eliminating polynomial is an integer multiple of the separable polynomial w); the real roots in increasing order give the real zeros of the last system, an isomorphism of quotient rings those of the file; the coordinates that are removed or exchanged back are those of the added or exchanged variables. For large precision: the widths of the intervals of Horner's rule tend to zero uniformly for all multiples of w, and there are finitely many roots.
  Status: partial (Props/SolveReal.lean): C81_empty, C81_positive, C81_points_partial, C81_large_precision_partial, C81_ends_partial.
  C81_points_partial, C81_large_precision_partial, C81_ends_partial: exactness of the lifted parametrization (one further prime confirms only, C65), degree equal to the dimension of the quotient ring, and for a given precision the distance of the roots and the safe evaluation are hypotheses; without them the boxes can be wrong (C54). The precision of C81_large_precision_partial is not bounded explicitly. Hypotheses as for C80. Composition of C80 with C53, C54 and C71. Termination of the loop over the primes is not proved.
- **C82** Points printed outside shape position, for most random vectors.
  Linear forms on the quotient ring that vanish on one of finitely many elements, or are degenerate on one of finitely many residue fields, are few: each condition is a proper subspace or a union of at most D of them. Outside of these sets the minimal polynomial of the sequence has the radical of the minimal polynomial of the last variable, the table polynomial is invertible modulo it, the comparison with the column of the square gives x^2 = c(y)^2 in the reduced local rings, and together with the column of x this forces x = c(y) at each root. Then each root gives a homomorphism of the quotient ring into an extension field. Converse of exactness: a described point is determined by its last coordinate. Lost solutions: a complete symbolic execution for arbitrary random elements.
  Status: proved (Props/SolveLost.lean, Props/SolveRandom.lean): C82_lost, C82_lost_run, C82_elements, C82_points, C82_exact.
  C82_elements splits a run of C78 at the random elements of the last computation; C82_points, C82_exact count the bad vectors for fixed factors and fixed system; the distribution of rand() is not modelled. After a random linear form has been added the code no longer requires that the squares of the variables are in the monomial basis, so that coordinates may be unverified; nothing is claimed then. C82_lost and C82_lost_run: the finding. Assumptions on the file as for C78.
- **C83** Success for most random vectors in shape position.
  In shape position the quotient ring has the basis 1, y, ..., y^(D-1). The coefficient of y^(D-1) is a nondegenerate form, so each linear form is that form after multiplication by an element u. If the Hankel matrix of the form is regular then u is invertible, and the last entry of the first column of the inverse is zero exactly if a fixed nonzero linear form vanishes at the inverse of u: these u are at most p^(D-1). With the at most D p^(D-1) forms whose sequence has not the minimal polynomial of y (C82) this bounds the bad vectors. For the others C61 gives the parametrization and the parametrization of an ideal in shape position is unique. The staircase is compared with the limit by a bijection with the lists of C60.
  Status: proved (Props/SolveShape.lean): C83_success, C83_stable.
  The distribution of rand() is not modelled: the bad vectors are counted. UbV, UbAttemptV list the undefined behaviour of the model behind F4: in the computation of the matrix, for characteristic 2, for large primes, in fglm. F4 itself is free of it by C44/C77. Assumptions on the file as for C78. The condition on the staircase is stated for the ideal (Spec/Stair.lean) and is the one of C60.
- **C84** The arrays returned by the library function msolve_julia.
  The state of the generators built from the arrays is the one that the parser builds from a file of the same polynomials, so that the lemmas of C80/C81 about the restarts, the attempts and the lifted parametrization apply; they were restated for systems instead of files. Export is a function into Option that is none on an access outside; reading back is a separate function of the specification (cut by lengths), inverted by induction over the coordinates and over the boxes. The linear form is read off from the last polynomial of the changed system, an invariant of the restarts.
  Status: partial (Props/Julia.lean): C84_input, C84_system, C84_defined, C84_empty, C84_positive, C84_solutions_partial, C84_ends_partial, C84_unterminated, C84_added, C84_generic_undefined, C84_prime_undefined.
  Composition with C80/C81. C84_input: every list of pairs of coefficient and exponent vector with positive denominators is meant by the specification. Partial: enclosure needs the conditions of C81 (exact parametrization, roots apart, Horner without overflow of the shift), and the primes have to be good. Return values -2 and -3 of the tracer and the text that is printed besides are left out; a second -4 restarts the same computation. print_gb different from 0 is not covered (dim and dquot are uninitialised then). C84_generic_undefined and C84_prime_undefined: the findings.
- **C85** The arrays returned by the library function export_groebner_qq.
  The reading of arrays with running offset is inverted by induction over the generators; then the induction over the restarts of C79, which delivers the terms of the lifted polynomials, and the export theorem of C63 with the flat arrays compared to a separate specification (HoldsZ).
  Status: proved (Props/ExportQq.lean): C85_basis, C85_zero.
  C85_basis: composition of the import from arrays (C84), the core of C79 and the export of C63. C85_zero: finding, a coefficient zero in every generator ends the process with exit(1). Only mon_order 0 (C77 shows that lex imports are sorted by another order) and truncate_lifting 0. The coefficients are allocated by malloc, not by the caller's mallocp (by reading only).
- **C86** The leading monomials printed by msolve -g 1 over the rationals.
  The first modular computation of C79 for a lucky prime: the leading monomials after elimination are those of bs (elim_image), the lengths are nonzero by C63; the text by induction over the list.
  Status: proved (Props/ExportQq.lean): C86_leads, C86_same, C86_unlucky.
  C86_leads, C86_same (independent of the lucky prime and of the order of sorted generators). C86_unlucky: for x^2 + 1073741826 y^2, x y + y^2 and the prime 2^30 + 3 the leading monomial of y^3 is not printed nor a multiple of a printed one.
- **C87** The leading monomials printed by msolve -g 1 over a prime field.
  The path of C73 with another last step; the two loops that write a monomial are compared with the text of a term by induction over the variables, the list by induction over the basis. A leading monomial 1 occurs iff the ideal is the unit ideal, then the basis has one element by reducedness.
  Status: proved (Props/EndToEndLm.lean): C87_leads, C87_exists, C87_same_ideal, C87_unit.
  C87_leads (both cases), C87_exists, C87_same_ideal. C87_unit: finding, for x and x+1 modulo 101 the printed list is empty although the comment announces one element. The assumptions are those of C73.
- **C88** The command line of msolve.
  getopt and the loop of getoptions as functions on lists. A separate inductive relation says how options are written; it is total and functional (induction over the words), and getopt inverts it. Each setting is followed through the loop by one lemma about the last occurrence of a letter, ranges are an invariant of the loop.
  Status: proved (Props/Options.lean): C88_every, C88_settings, C88_ends, C88_ranges, C88_exact, C88_reads, C88_untouched, C88_same_file, C88_binary_only, C88_I, C88_wraps.
  C88_every, C88_settings, C88_ends, C88_ranges, C88_exact, C88_reads, C88_untouched. Findings: C88_same_file (-o with the name of the input empties the input before it is read), C88_binary_only (-F without -f is accepted and leads to a null pointer), C88_I (-I takes a value although the help text shows none), C88_wraps (values are reduced modulo 2^32 before the range checks). getopt is modelled as that of the GNU C library without POSIXLY_CORRECT; two paths are the same file only if they are equal strings.
- **C89** The whole program.
  Program.Exec composes the command line (C88), the opening of files and the choice in core_msolve with the executions of C73, C76, C78, C79, C83, C86, C87. A request is specified by the occurrences of options (Spec/Request); the settings follow from C88_settings, the characteristic from the theorems about reading files.
  Status: proved (Props/Program.lean): C89_basis, C89_leads, C89_solve, C89_normal_forms, C89_basis_rational, C89_leads_rational, C89_solve_rational, C89_groebner, C89_independent, C89_membership, C89_needs_input, C89_rational_ignores, C89_signatures_first, C89_unit.
  C89_basis, C89_leads, C89_solve, C89_basis_rational, C89_leads_rational, C89_solve_rational: the executions of the program are exactly those of the composed models. C89_groebner, C89_independent: the composed statement over prime fields. C89_normal_forms, C89_membership: normal forms. C89_needs_input. C89_unit: a concrete command line. Findings: C89_rational_ignores, C89_signatures_first. The paths of -S, -C, -q and the options -l, -N, -L, -u, -v are not modelled here.
- **C90** Saturation from the input file to the output file.
  EndToEndSat.Run composes reading and importing (C73, C82) with the saturation (C69) and the printing of the basis (C15, C73). The text of a reduced basis is a lemma about printing for every ideal (text_of_basis).
  Status: partial (Props/EndToEndSat.lean, Props/ProgramSat.lean): C90_between_partial, C90_leads_partial, C90_constant, C90_silent, C90_small, C90_not_saturated, C90_program, C90_delivered_partial, C90_empty, C90_command.
  C90_between_partial: the text is the reduced basis of an ideal between I and its saturation. C90_leads_partial: with -g 1 its leading monomials. C90_program, C90_delivered_partial: the same from the command line to the output file. C90_constant, C90_silent, C90_empty, C90_small. C90_command: a concrete command line. Partial: that the result is the saturation is false of the code (C90_not_saturated: for x*y and y the program may write x*y). The form of the text is stated for degrees below 2^16 in the basis.
- **C91** The subspace of the colon computation.
  The loop of the two functions is that of monomial_basis_enlarged (LiftStore, invariant of C45 and C60); the removal of rows in place is shown to be a filter by induction over the turns.
  Status: proved (Props/Colon.lean): C91_degree, C91_truncated, C91_kept, C91_null, C91_too_small, C91_finite, C91_ideal, C91_not_closed.
  C91_truncated, C91_kept: the rows. C91_ideal: the same in terms of the standard monomials of the ideal. C91_degree: the bound of the degree. C91_null, C91_finite. Findings: C91_too_small, C91_not_closed. The matrix and the parametrization of the colon computation are not modelled.
- **C92** The vector of a normal form in the colon computation.
  Functions over lists of monomials; reads outside are distinct outcomes. The comparison is related to the order of Spec/Monomial; the merge of terms and rows is shown by induction over the rows, with the invariant that all terms passed are smaller than the rows to come.
  Status: partial (Props/ColonVec.lean): C92_compare, C92_confused, C92_search, C92_constant, C92_vector_partial, C92_moved, C92_dropped, C92_single.
  C92_vector_partial: the entries are the coefficients if no two different monomials are confused and the second greatest monomial is a row if the greatest one is. C92_compare: what the comparison decides. C92_search: the search before is safe exactly if there are at least five terms and the five smallest are rows. The full claim is false of the code: C92_confused, C92_moved, C92_dropped, C92_single, C92_constant.
- **C93** The rows of the matrix of the colon computation.
  Both loops as folds over the indices of the rows, with array bounds. Products of rows that are leading monomials and leading monomials with the last variable are the same sorted list, so the counter of the first always points to the right one; invariants by induction over the rows. For the overflow: counting.
  Status: partial (Props/ColonMat.lean): C93_classify, C93_fill_partial, C93_overflow, C93_cases, C93_overflow_squares, C93_read_iff, C93_read.
  C93_classify: the first loop. C93_fill_partial: the second loop, if no row is mapped to a standard monomial that is no row. C93_cases: such a monomial has a degree above the bound. The full claim is false of the code: C93_overflow (then the second loop always leaves an array), C93_overflow_squares, C93_read_iff (when exactly the first loop reads behind an array), C93_read. The entries of the dense rows are in C94 (elements of the basis) and C92 (the loop for normal forms is the same).
- **C94** The dense rows from elements of the basis in the colon computation.
  As for C92, by induction over the rows, over the array of all terms up to the end of the element; terms before the element are smaller than its leading monomial, hence than all rows that are left when the loop reaches them.
  Status: partial (Props/ColonPoly.lean): C94_row_partial, C94_own_leading, C94_own_leading_three.
  C94_row_partial: right if the leading monomial is no row, and no two different monomials are confused by the comparison (C92_compare); the terms of the elements before do no harm, as they are smaller. The full claim is false of the code: C94_own_leading, C94_own_leading_three (the leading monomial itself is written to the entry of another row).
- **C95** The number of terms and the polynomial in the colon computation.
  Induction over the fuel of the loop with an invariant that relates the number of the next term to the tentative degree; the polynomial by C25 (Berlekamp-Massey) and the square-free part by the lemma used for the parametrization (sqfPart_spec); the counterexamples are sequences of zeros with one or two terms that are not zero, whose minimal polynomials are powers of x.
  Status: partial (Props/ColonSeq.lean): C95_loop, C95_right_partial, C95_full, C95_early, C95_square, C95_one_row.
  C95_loop: termination and bounds for all degrees; the last tentative degree is greater than the degree of the guess, or the number of rows. C95_right_partial: the polynomial is right if the order of the recurrence is at most the last tentative degree; C95_full: in particular if the loop does not stop early (always for at most four rows). The full claim is false of the code: C95_early (eight zeros give the polynomial 1, whatever follows), C95_square (the degree of the square-free part is compared, so the loop can end although the minimal polynomial of the computed terms has the full tentative degree). The start vector is random in the code (vecinit), so both need special terms; the model is for all sequences. C95_one_row: with one row, the polynomial is read from outside of an array.
- **C96** The random start vector and the products with the matrix in the colon computation.
  The proof of C46 for a bound on the products instead of reduced entries; induction over the number of products, with the invariant that the entries are below 2p; the counterexamples are evaluated by the kernel, the prime is proved with Lucas' criterion.
  Status: partial (Props/ColonStart.lean): C96_start, C96_avx_partial, C96_avx_overflow, C96_portable_partial, C96_portable_overflow, C96_init_read, C96_term, C96_product_partial, C96_vectors_partial, C96_terms_partial.
  C96_start: the entries are right modulo p and below 2p. C96_avx_partial, C96_product_partial, C96_vectors_partial, C96_terms_partial: for p at most 2^30 everything is right with AVX2, although rows that copy an entry never reduce it. The full claim is false of the code: C96_avx_overflow (eight products overflow 64 bits, p = 1224736769, entries from values of rand()). Without AVX2: C96_portable_partial (right or signed overflow), C96_portable_overflow. C96_term holds for all accepted primes. C96_init_read: the initialization reads behind the start vector exactly if there are fewer than 2*nvars rows (the values are overwritten later).
- **C97** The report about the parametrizations in the colon computation.
  Induction over the loop of the comparisons, with the first failure as invariant; the rest by cases.
  Status: partial (Props/ColonCheck.lean): C97_result, C97_all_partial, C97_never_checked, C97_few_variables, C97_null.
  C97_result, C97_all_partial: for any marks, the number and the message tell which of the marked coordinates passed. The full claim is false of the code: C97_never_checked (msolve -C passes an array of zeros, so nothing is compared and the message is always that all seem correct, for at least three variables), C97_few_variables, C97_null (after two of the messages the pointer NULL is read). The polynomials that are compared are parameters of the model.
- **C98** The parametrizations in the colon computation.
  Induction over the fuel of the loop together with the loop of C95; the coordinates by the lemmas on numerators of shifted sequences of C53 (tablePoly_act, tablePoly_coprime); for the finding, the gcd with 0 is the polynomial itself.
  Status: partial (Props/ColonParam.lean): C98_state, C98_full_degree, C98_coordinate_partial.
  C98_state: what the loop leaves. C98_coordinate_partial: the claim, if the loop is left early (the degree of the square-free part is smaller than the tentative degree). The full claim is false of the code: C98_full_degree (for a square-free minimal polynomial whose degree is the number of rows, the minimal polynomial has been replaced by 1 by nmod_berlekamp_massey_set_prime, the inversion fails and the pointer NULL is read). The functions of FLINT are modelled as the copies in berlekamp_massey.c.

## Disagreements found

Proved in Lean (negation with a witness, theorem in parentheses):

- fglm_core.c passes `2^62 / prime` with the C operator `^` (xor) as inverse for the Barrett reduction (C02_preinv_as_written_wrong).
- `is_prime` accepts 1 and rejects the primes of its own table (C06_small_inputs_wrong); it rejects the prime 2^32 - 5 since the square in its loop bound wraps (C06_large_prime_rejected).
- Degrees above 16 bits break the comparison of monomials and the additivity of the hash (C07_drl_degree_overflow, C12_overflow_breaks_hash).
- Export of the zero polynomial with an elimination block writes one exponent too many (C14_export_zero_poly_overflow).
- A valid generator is lost when an invalid one precedes it (C15_valid_generator_lost).
- Coefficients below `-p` are imported with the wrong value (C16_large_negative_coefficient); characteristics from 2^31 on get the wrong width (C17_large_characteristic).
- The lazy row reductions overflow when `ncols * (p-1)^2 >= 2^63` (C19_lazy_overflow); the AVX2 product overflows for p = 2^31 - 1 (C46_avx_row_overflow).
- The test of dimension zero says no for the unit ideal (C23_unit_ideal).
- The naive Taylor shift does not end for degree 0 (C27_degree_zero).
- `bound_roots` returns -1 also for polynomials with positive roots (C30_minus_one_ambiguous).
- The interval evaluation does not enclose the value (C35_not_enclosing: 4x^2-6x-3 on [1,2] gives (-7,-1), the value at 2 is 1).
  Consequences at the default precision: a real solution is lost (C54_root_lost), a coordinate has the wrong sign (C54_wrong_sign).
- The check of a lifted parametrization ignores high coefficients (C40_high_coefficients_unchecked) and does not see denominators that vanish modulo the prime (C40_vanishing_denominator).
- The comment in symbol.c 263-264 is false with a cap on the number of pairs (C43_class_split).
- `check_and_set_linear_poly` reads wrong slots with an elimination block (C45_check_elimination).
- An old random linear form is printed after a later failure (C57_stale_form); the new variable is always called A (C57_name_clash).
- A prime for which the modular basis has another number of elements is dropped without report, and the lifting of a Groebner basis stops (C62_unreported_prime_aborts);
  the confirmation by one prime does not certify the result (C62_not_certified).
- With a zero elimination ideal `monomial_basis_enlarged` reads a row before its array (C63_zero_elimination).
- `crt_lift_mpz_upoly` reads the coefficient array of a modular coordinate beyond its length when the coordinate has a smaller degree for that prime; what is there (data of an earlier prime) enters the remaindering for good (C65_stale_entries).
- Tracer: if the first prime is unlucky, runs modulo good primes may be accepted and return sets which are no Groebner bases; nothing checks the S-pairs again (C66_unlucky; e.g. x^2 + (p-1) y^2, x y + y^2 with first prime p).
- `secondary_modular_steps`: after a prime rejected by the tracer, `nmod_params[i]` is NULL and never allocated again; the next accepted prime of this slot writes through it (C67_next_batch_crashes). The variable `error` is shared by all threads and reset by each of them: a rejected prime may be taken as good, a null basis used, a good prime dropped (C67_race).
- Parsing: zero coefficients are read as one, `-0` as minus one, repeated factors count once, second numbers, unknown names and denominators
  over prime fields are ignored, the first coefficient is cut to 32 bits and not reduced, a leading plus reads outside of the term
  (C42_*); files with other layouts than one polynomial per line access `lens` outside of its bounds (C58_lines).

Seen while reading, not formalised:

- ratrecon: documentation strict, code `<=`; CRT: comment `0 < out`, code `0 <= out`.
- update.c: `check_enlarge_pairset` may leave size equal to load plus added; f4.c: `reduce_final_basis` hangs if no element remains;
  `num_redundant` counts twice; symbol.c 266-274 `mnsel` off by one; io.c 417-421 homogeneity flag wrong for block orders.
- hash.c 637-701: `insert_multiplied_signature` adds indices instead of hash values.
- `return_zero` never sets its outputs; linalg-fglm.c multiplies `j*ncols` in 32 bits.
- fglm_core.c: `set_param_linear_vars` writes `coeffs[length-1]` with length 0; `invert_hankel` with dimension 1 and first entry 0
  reads `coeffs[-1]`; the vector of the colon variant may contain entries from the prime on; the non-shape branch with a linear last
  variable uses wrong row offsets.
- refine.c: `1L << Nlog` undefined for `Nlog >= 63`; precision converted to `int`.
- msolve.c: `next_prime` wraps around after the last prime of 31 bits, only the first prime is excluded, so primes may repeat;
  leaks on `return 1` in the check; `(int32_t)pow` undefined from 2^31 on; a branch of `add_random_linear_form` is dead.
- lifting-gb.c: `dlift->S` is read at 1243 before it is initialised; with no element in the elimination ideal
  `check1[-1]` and `bexp_lm[-nv]` are read; `core_groebner_qq` with a positive characteristic and `print_gb` other than 1 calls itself forever (1285-1298).
- hilbert.c: `grevlex_is_less_than` does not compare monomials of the same degree; harmless for its only use.
- msolve.c 1321: `det_idx - 1` wraps around for `det_idx = 0` (harmless, a minimum is taken). lifting.c: `check_linear_forms` compares with `modular_linear_forms[n]` for every j; `mulmat_reconstruct` clears only `nrows` of `ncols` denominators (both with matrix lifting only).
- lifting-gb.c 750: `&(bs->ht)` is computed before the test `bs == NULL`. f4.c 713: for a rejected prime the matrix and the local meta data are not freed.
- la_ff_32.c 3582 (also la_ff_16.c 1658, la_ff_8.c 1787): in `probabilistic_dense_linear_algebra` the loop variable `m` of the parallel region is not private (data race); only used for `-l 43`, which `validate_input_data` replaces by 2 (not modelled).
- f4sat.c 563: the loop `for (; ps->ld > 0; ++round)` is not entered if the generators give no pairs (F = [xy], f = y): no saturation step runs, the result is I (`C69_not_saturated`).
- f4sat.c 113-125: `is_already_saturated` adds `sat->hm[0]` without normalising it; the elimination assumes monic pivots, so the test says yes for ideals which are not saturated (`C69_test_wrong`: I = ((x-1)^2 (x+1)), f = 2x-2, result x^2-1 instead of x+1).
- f4sat.c 639: the kernel is not computed if the symbolic preprocessing finds no reducer, although the stored normal forms may be dependent (modelled, `Stage.skip`).
- f4sat.c 620-625: only multipliers of degree less than `sat_deg` are tested.
- la_ff_32.c 2903-2905: `mulh`, `mulcf`, `pivcf` have `ncols` entries but are indexed by positions below `sat->ld`; heap overflow if `sat->ld > ncols` (memory not modelled).
- f4sat.c 88-216: `lm` and `lmps` are reallocated with `lml` entries and `red` with the old size, later updates write past the end (memory not modelled); `mltdeg` and the redundancy counters are not restored (modelled).
- f4sat.c 450-458: `update_multipliers` overwrites the index `j` with an elimination order (the theorems are for the degree reverse lexicographic order).
- f4sat.c 171: a constant `sat->hm[0]` added in the test does not set `bs->constant`, the answer is no.
- lifting-gb.c 294-315: a vanishing coefficient with denominator different from one is printed as `0/d*` without a monomial (example beside `C70_run`, which shows that this is not reached).
- engine.c 64-71: the test `nr_gens <= nr_nf` comes before the one for `res == -1`, so that the value -1 (all generators invalid) is never
  returned: for the zero ideal the library prints "Bad input data" and exits (C79_zero).
- lifting-gb.c 612-628, 1413-1424: after a restart of `core_groebner_qq` `trace_level` is still `APPLY_TRACER`: the trace of the unlucky prime
  that caused the restart is applied modulo the new first prime instead of being recorded again; if it is rejected the program exits
  (constructors `restart` and `stop` of `Core` in EndToEndQq.lean).
- lifting-gb.c 1181-1185: if the first prime is unlucky in such a way that leading monomials of the basis are missing, the trace is
  accepted modulo all other primes and the confirmed and printed result is no Groebner basis (C79_unlucky).
- la_ff_32.c 1931, 1853: after a lost race option 42 restarts the reduction at `*pc = np - ncl`, an index of the array of
  dense rows used as a column. The columns it repeats are zero or have known pivots, so the result is not affected (C72).
- la_ff_32.c 3381: `dm[k] = reduce(..., &k, ...)` leaves open which `k` is used on the left; C72 shows that the call
  does not change it.
- la_ff_16.c starts the reduction of a row at column 0, la_ff_32.c and la_ff_8.c at the first entry of the row. The
  latter needs that entry to be the leftmost one (hypothesis of C72).
- io.c 722-752: a coefficient is invalid only if it is the literal 0. A leading coefficient that is a multiple of the
  characteristic is imported as 0, its "inverse" is 0 and the whole generator becomes zero (C73_zero_coefficient).
- io.c 270-450: terms with the same monomial are not merged; the dense row in the linear algebra keeps one of them
  (C73_repeated_monomial: `x+x+y` gives `x+y`).
- la_qq.c 848-856: the final reduction over Q swaps the coefficients out of the arrays of the basis. A multiple of a
  basis element used as a reducer has the same array, is read as zero, and comes back as NULL, which convert.c 668
  reads (C75_shared, C75_reducer, C75_witness: x^2+x*y, y-1). export_f4 with characteristic 0 and reduce_gb = 1.
- msolve.c 4177, engine.c 67-86: with -n a zero polynomial among those to be reduced is subtracted from the number of
  generators, so that a valid generator is dropped: for x, y, y, 0 and -n 2 the output for y is y instead of 0
  (C76_zero_polynomial).
- msolve.c 4185: if -n leaves no generator, initialize_gba_input_data returns without setting st, which is
  dereferenced before the return value is checked (read in the code, not modelled).
- msolve.c 3767 (-C without -i): the generators are imported modulo 1073741827, then core_gba is called with the characteristic
  of the file. As they differ, copy_basis_mod_p (basis.c 428-450) reads cf_qq, which is a null pointer for a basis
  over a prime field (read in the code, not modelled).
- engine.c 125-143 (-q): export_results_from_gba exits for signature based computations, nothing is printed (read in
  the code, not modelled).
- order.c 244-267: initial_gens_cmp_lex sorts the terms in increasing order, the functions for the other orders in
  decreasing order. So export_f4 with mon_order = 1 takes the smallest term as the leading one: with reduce_gb = 1
  it writes behind the end of an allocated row for x+y (C77_lex_undefined), with reduce_gb = 0 it returns x+y, x as
  a Groebner basis (C77_lex_wrong).
- io.c 319-325: the coefficients passed by the caller as const are changed (C77_input_modified).
- f4.c 810-813: return_zero is never reached, as nr_gens <= nr_nf is tested before (C77_zero_ideal). It would not set
  the pointers for the result either (io.c 454-478).
- engine.c 57-70: the return value 0 of validate_input_data is not checked; e.g. for field_char > 4294967291 the
  null pointer invalid_gens is then used (read in the code, not modelled).
- io.c 409-423: for elimination orders st->homogeneous is set to 1 if a generator is not homogeneous (read in the code,
  not modelled).
- fglm_core.c 253-269: if the last entry of the first column of the inverse Hankel matrix is 0 then points->length is set to
  2*dim+1 although memory for 2*dim points was asked for (line 860): coeffs[2*dim] is read behind the buffer
  (C52_other_reads_outside).
- fglm_core.c 1534-1538: for primes from 1518500213 on nmod_fglm_compute_trace_data returns a null pointer while
  success keeps the value 1; msolve.c 2090 then uses nmod_params[0]->elim. So no system with finitely many solutions
  can be solved over such a field, though the input accepts primes up to 2^31 (C78_no_output). Same if
  compute_parametrizations fails (1630).
- fglm_core.c 772-779: in characteristic 2 the constant RED_64 is 2^64 mod 2 = 0 and generate_sequence_verif divides
  by it: no system with finitely many solutions can be solved in characteristic 2 (C78_no_output).
- msolve.c 3567, 2089-2098, 4133: round starts with -1 and the test that all variables have been verified by squares
  is only done for round != 0, so not after the first random linear form; a parametrization whose degree is smaller than
  the dimension is then printed although coordinates have not been verified. If there are more than p solutions
  over the prime field the points printed are never all of them (C78_incomplete).
- msolve.c 720-870 with io.c (C15): with p <= number of variables the coefficients (i+1)^k of the added linear form can
  be 0 modulo p; the generator is then invalid and ignored, and the system has a new free variable, so that positive
  dimension is reported (excluded in C78 by the hypothesis that p exceeds the number of variables).
- fglm_core.c 1262-1268: for a zero coordinate fit_length(elim->length - 1) is followed by a write of coeffs[1]; if elim
  has degree 1 this is behind the buffer (e.g. x^2, y^2; outcome none of fglm in Solve.lean).
- msolve.c: a variable of the input called A has the same name as the added variable in the output.
- hilbert.c 1310ff: if no element of the basis is left after the elimination (zero elimination ideal), the monomial basis is
  computed from an array without elements (C79_basis: such an execution never prints).
- msolve.c 1727-1733: after an error in the application of a trace `nmod_params[i]` is set to NULL; in the next round the pointer is passed to
  nmod_fglm_compute_apply_trace_data, which uses it (read in the code; the constructor `failed` of `Threads` in SolveQ.lean does not exclude it).
- msolve.c 1719-1733: `error` is shared by the threads without synchronisation: an error for one prime marks the primes of other threads as bad.
- msolve.c 2428-2438: before the return value -4 the reconstruction data are freed twice (read in the code, not modelled).
- fglm_core.c 1112-1330 (not in shape position): solutions are lost without a message, with the default options and for almost all
  random choices, when the last variable has the same value at solutions with different multiplicities: for y^2, xy-y,
  (x-1)(x-2)(x-3) modulo 101 only (1,0) is printed (C82_lost, C82_lost_run). The comparison with the squares only shows that the
  printed points are solutions (C82_points), not that none is missing; it is complete exactly if the last variable separates the
  solutions (C82_exact).
- msolve.c 4838-4952 (export of msolve_julia): (a) with genericity_handling below 2 and the return value 2, dim stays 0 and nvars 0
  while dquot is positive, so that an array of one entry is allocated and a second entry written (C84_generic_undefined); (b) with a
  prime characteristic the polynomials of mpz_param stay empty while nvars is set, so that a null pointer is dereferenced for two
  variables at least (C84_prime_undefined); (c) names are copied with calloc(strlen) and memcpy, without the terminating zero, and
  are printed with %s and returned (C84_unterminated); (d) with get_param 0 the points are in the order of the caller's variables
  while the returned names and the parametrization are in the changed order, and the returned number of variables counts the added
  variable, which the points do not have (C84_solutions_partial); (e) by reading only: dim and dquot are uninitialised if print_gb is
  not 0, the array for the linear form leaks if there is no parametrization.
- lifting-gb.c 1205-1239 (-g 1 over the rationals): the leading monomials are those modulo one prime that is not checked; for an unlucky
  prime leading monomials are missing (C86_unlucky).
- lifting-gb.c 1766-1860 (export_groebner_qq): generators that all have a coefficient zero end the process of the caller by exit(1)
  (C85_zero); by reading only: return_zero (io.c 454-478) assigns no output pointer, coefficients are allocated with malloc instead of
  the caller's function.
- iofiles.c 226-252 (-g 1 over a prime field): for the unit ideal the leading monomial 1 is written as an empty text, the output `[]:` is that of
  an empty list (C87_unit); over the rationals 1 is written.
- main.c 409-416: the output file is emptied before the input is read; `-f a -o a` destroys the input and reads an empty file (C88_same_file).
- main.c 326-340, 389-423: `-F` without `-f` is accepted; the name of the input is then a null pointer, `fopen` fails and the null stream is read (C88_binary_only).
- main.c 184: `-I` (shown without a value in the help text) and `-R` take a value; `-I -f in.ms` swallows `-f` (C88_I).
- main.c 186-322: values of options are cut to 32 bits before the range checks: `-g 4294967297` is `-g 1` (C88_wraps). The default of `-p` is 128, the help text says 32.
- msolve.c 3579-3643: with `-q 1`, `2` or `3` over a prime field a basis is computed and exported, but nothing is printed; `-S`, `-C`, `-n`, `-g` have no effect beside it (C89_signatures_first).
- msolve.c 4489-4760: over the rationals `-q`, `-C` and `-n` do not change which computation is chosen, without a message (C89_rational_ignores).
- msolve.c 3730-3733: `-S` without `-g` computes a basis and writes nothing (C90_silent). With `-S -g 2` the text need not be the saturation (C90_not_saturated).
- f4sat.c 97, 205-212, 599: messages of the saturation are written to the standard output also without `-v`, and are mixed with the basis if there is no `-o`.
- hilbert.c 479-482: `msolve -C` ends with the message `Vector space is too small` exactly if no leading monomial contains the last variable (C91_too_small), also if the colon ideal is easy.
- hilbert.c 395-486: the span of the rows of `-C` need not be closed under the multiplication by the last variable (C91_not_closed).
- hilbert.c 599, 627: the loops of `is_larger_exponent` and `is_larger_exponent_bs` end before the second variable: `x` and `y` are taken to be equal (C92_confused); with `-C` a coefficient can be written to a wrong entry (C92_moved).
- hilbert.c 943: `k < len-2`: the leading coefficient is lost if the second monomial is no row (C92_dropped); for one term `len-2` wraps, and entries before the terms are read (C92_single).
- hilbert.c 2073-2084, 2326-2336: a search without effect looks for the five smallest terms of the normal forms among the rows; with fewer terms, or a term that is no row, it reads outside (C92_search, C92_constant).
- hilbert.c 2374: `dense_idx` is written for every row that is not mapped to a row, but has entries only for those mapped to multiples of leading monomials: it is overrun for `x^2, y^2, z^2` and a normal form of degree at most 2 (C93_overflow, C93_overflow_squares).
- hilbert.c 2144, 2376: `div_xn[count_lm]` is read behind the array if all leading monomials contain the last variable, as for `x*y` (C93_read_iff, C93_read).
- hilbert.c 871-877: with `-C`, the leading monomial of an element of the basis can be taken to be equal to a row, and enters the matrix: for `y^2-1, x^3`, the matrix maps `y` to `1-x*y` (C94_own_leading).
- fglm_core.c 1946: with `-C`, the loop over the terms stops when the degree of the square-free part of the guess is smaller than the tentative degree; for the sequence 0,0,0,1,0,0,0,0,1,0,... it stops after eight terms, which do not determine the minimal polynomial (C95_square, C95_early).
- fglm_core.c 1497-1498: with `-C`, an entry of the start vector is the sum of two remainders and is not reduced; for primes above 2^30 (and below 1518500213, which are accepted) the products with the matrix can overflow 64 bits, with AVX2 (C96_avx_overflow) and without (C96_portable_overflow).
- fglm_core.c 1845, msolve.c 3965: with `-C` and one row, the constant coefficient of the polynomial is read behind `lineqs` (C95_one_row). fglm_core.c 1503: with fewer rows than twice the number of variables, `vecinit` is read behind its end (C96_init_read).
- msolve.c 3966, fglm_core.c 1406: with `-C`, the array `squvars` contains only zeros, so no parametrization is verified, and "All the parametrizations of the ideal seem correct" is printed for any result with at least three variables (C97_never_checked). msolve.c 3981: after "Prime is too large" and "Matrix is not invertible" the pointer NULL is read (C97_null).
- fglm_core.c 1949: with `-C`, when the degree of the guess is the number of rows, the Berlekamp-Massey structure is started over before the loop ends, so that the parametrizations are computed with the polynomial 1 in place of the minimal polynomial; the message is "Matrix is not invertible (there should be a bug)", and the pointer NULL is read (C98_full_degree).
- iofiles.c: a term of exactly 50000 characters writes one byte behind the buffer; a variable name of 50 characters overflows its buffer
  (both are `none` in the model); `print` of the leading ideal of {1} prints nothing; `display_gens_ff` prints `c**x` for the last term.

## Tests against wrong programs

seeded/LOG.jsonl lists the edits made in a scratch copy of the model, the claim each one breaks, and the theorems that failed.
Edits that survived are listed with the theorems tightened after them, or with the reason why the claim is still true.
