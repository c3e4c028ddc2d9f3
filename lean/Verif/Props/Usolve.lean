import Verif.URoots
import Mathlib.FieldTheory.Perfect
import Mathlib.FieldTheory.Separable

/-!
C26-C34, C49, C50: the univariate real root solver.
-/
namespace Verif.Props
open Verif.UPoly Verif.UEval Verif.UScale Verif.UTaylor Verif.USign Verif.UDescartes Verif.UBound Verif.UIsolate
open Verif.Isolate Verif.URefine
open Polynomial

/-- The polynomial `2x^2 - 3x - 7` used in the examples. -/
private def ex1 : ℕ → ℤ := fun i => if i = 0 then -7 else if i = 1 then -3 else if i = 2 then 2 else 0

/-- The polynomial `4x^3 - 4x^2 - x + 1 = 4(x - 1)(x - 1/2)(x + 1/2)`. -/
private def ex2 : ℕ → ℤ := fun i => if i = 0 then 1 else if i = 1 then -1 else if i = 2 then -4 else if i = 3 then 4 else 0

/-- The records as triples. -/
private def recs : URes → Option (List (ℤ × ℤ × Bool) × ℕ × ℕ)
  | .done r a b => some (r.map fun (i : Ival) => (i.numer, i.k, i.exact), a, b)
  | _ => none

/-- C26: evaluation at `c / 2^k` is exact. -/
theorem C26_eval_dyadic (up : ℕ → ℤ) (deg : ℕ) (c : ℤ) (k : ℕ) :
    (eval2exp up (deg + 1) c k : ℚ) = 2 ^ (k * deg) * aeval ((c : ℚ) / 2 ^ k) (toPoly up deg) :=
  eval2exp_real up deg c k

/-- C26: the sign of the value is that of the polynomial at the point, also as a real number. -/
theorem C26_eval_dyadic_sign (up : ℕ → ℤ) (deg : ℕ) (c : ℤ) (k : ℕ) :
    let v := aeval ((c : ℝ) / 2 ^ k) (toPoly up deg)
    (0 < eval2exp up (deg + 1) c k ↔ 0 < v) ∧ (eval2exp up (deg + 1) c k = 0 ↔ v = 0) ∧
      (eval2exp up (deg + 1) c k < 0 ↔ v < 0) := by
  intro v
  have h : (eval2exp up (deg + 1) c k : ℝ) = 2 ^ (k * deg) * v := eval2exp_real up deg c k
  have hp : (0 : ℝ) < 2 ^ (k * deg) := by positivity
  refine ⟨?_, ?_, ?_⟩
  · rw [← Int.cast_pos (R := ℝ), h, mul_pos_iff_of_pos_left hp]
  · rw [← Int.cast_eq_zero (α := ℝ), h, mul_eq_zero]
    exact ⟨fun h => h.resolve_left hp.ne', Or.inr⟩
  · rw [← Int.cast_lt_zero (R := ℝ), h]
    exact ⟨fun h => by nlinarith, fun h => mul_neg_of_pos_of_neg hp h⟩

/-- C26: evaluation at one half. -/
theorem C26_eval_one_half (up : ℕ → ℤ) (deg : ℕ) :
    (evalOneHalf up deg : ℚ) = 2 ^ deg * aeval (1 / 2 : ℚ) (toPoly up deg) := evalOneHalf_real up deg

/-- C26: evaluation at one and at an integer. -/
theorem C26_eval_integer (up : ℕ → ℤ) (deg : ℕ) (c : ℤ) :
    evalOne up deg = (toPoly up deg).eval 1 ∧ evalBasic up deg c = (toPoly up deg).eval c := by
  have h1 := evalOne_real (K := ℤ) up deg
  have h2 := evalBasic_real (K := ℤ) up deg c
  simp only [Int.cast_id, coe_aeval_eq_eval] at h1 h2
  exact ⟨h1, h2⟩

/-- C26: both values at the ends of an interval `(numer / 2^k, (numer + 1) / 2^k)` or, for `k < 0`,
`(numer, numer + 2^(-k))` have the signs of the polynomial there. -/
theorem C26_values_at_bounds (up : ℕ → ℤ) (deg : ℕ) (rt : Ival) :
    let r := valuesAtBounds up deg rt.numer rt.k
    let a := aeval (icell rt).lo (toPoly up deg)
    let b := aeval (icell rt).hi (toPoly up deg)
    (∃ u : ℝ, 0 < u ∧ (r.1 : ℝ) = u * a) ∧ ∃ u : ℝ, 0 < u ∧ (r.2 : ℝ) = u * b := by
  intro r a b
  obtain ⟨u, hu, h1, h2⟩ := valuesAtBounds_spec up deg rt
  rw [rp_eval] at h1 h2
  exact ⟨⟨u, hu, h1⟩, u, hu, h2⟩

example : eval2exp ex1 3 5 1 = -8 ∧ evalOneHalf ex1 2 = -32 ∧ evalBasic ex1 2 (-2) = 7 ∧ evalOne ex1 2 = -8 ∧
    valuesAtBounds ex1 2 2 (-1) = (-5, 13) := by decide +kernel

/-- C27: the naive shift, for every degree from 1 on. -/
theorem C27_taylor_naive (f : ℕ → ℤ) (deg : ℕ) (h : 1 ≤ deg) :
    ∃ g, taylorNaive f deg = some g ∧ toPoly g deg = (toPoly f deg).comp (X + 1) :=
  ⟨naive f deg, by unfold taylorNaive; rw [if_neg (by omega)], naive_poly f deg⟩

/-- C27: the divide and conquer shift, for every degree and every block size, with the tables of powers the
code builds; with them it agrees with the naive shift. -/
theorem C27_taylor_dac (f : ℕ → ℤ) (deg sz : ℕ) (h : 1 ≤ deg) (hsz : 2 ≤ sz ∨ deg ≤ sz) :
    ∃ g, dac (shiftTab sz) f deg sz = some g ∧ toPoly g deg = (toPoly f deg).comp (X + 1) ∧
      ∀ i ≤ deg, g i = naive f deg i := by
  obtain ⟨g, h1, h2⟩ := dac_spec (shiftTab sz) f deg sz h hsz fun i _ => shiftTab_spec sz i
  exact ⟨g, h1, h2, fun i hi => toPoly_inj (h2.trans (naive_poly f deg).symm) i hi⟩

/-- C27: the block size the code chooses is admissible for every degree. -/
theorem C27_block_size (deg : ℕ) (h : 1 ≤ deg) :
    ∃ sz, degPower deg = some sz ∧ (2 ≤ sz ∨ deg ≤ sz) ∧ ∀ f : ℕ → ℤ,
      ∃ g, dac (shiftTab sz) f deg sz = some g ∧ toPoly g deg = (toPoly f deg).comp (X + 1) := by
  obtain ⟨p, h1, -, -, h4, h5⟩ := degPower_spec deg h
  have hsz : 2 ≤ p ∨ deg ≤ p := by
    rcases Nat.lt_or_ge 256 deg with hd | hd
    · have := h5 hd; omega
    · exact Or.inr (h4 hd).ge
  exact ⟨p, h1, hsz, fun f => (C27_taylor_dac f deg p h hsz).imp fun g hg => ⟨hg.1, hg.2.1⟩⟩

/-- C27: with degree 0 the naive shift and the choice of the block size do not end (`none`). -/
theorem C27_degree_zero (f : ℕ → ℤ) : taylorNaive f 0 = none ∧ degPower 0 = none := ⟨rfl, by simp [degPower]⟩

example : (dac (shiftTab 2) (fun i => ([1, 0, -2, 0, 5, 3, -1] : List ℤ).getD i 0) 6 2).map
    (fun g => (List.range 7).map g) = some [6, 25, 43, 30, 5, -3, -1] := by decide +kernel

/-- C28: the rescaled polynomial is a positive multiple of `p(2^b x)`; its coefficients are not all even. -/
theorem C28_rescale (up : ℕ → ℤ) (b : ℤ) (deg : ℕ) :
    (∃ u : ℝ, 0 < u ∧ ∀ x : ℝ, aeval x (toPoly (rescale up b deg).2 deg) = u * aeval (2 ^ b * x) (toPoly up deg)) ∧
      (up deg ≠ 0 → (rescale up b deg).2 deg ≠ 0 ∧ ∃ i ≤ deg, ¬ (2 : ℤ) ∣ (rescale up b deg).2 i) := by
  refine ⟨?_, fun h => ⟨rescale_ne h, ?_⟩⟩
  · refine ⟨(if 0 < b then 1 else 2 ^ (deg * (-b).toNat)) / 2 ^ (rescale up b deg).1, by positivity, fun x => ?_⟩
    have := rescale_aeval (K := ℝ) up b deg x
    have hp : (2 : ℝ) ^ (rescale up b deg).1 ≠ 0 := by positivity
    rw [div_mul_eq_mul_div, ← this, mul_div_cancel_left₀ _ hp]
  · exact rescale_odd h

/-- C28: the roots are mapped by `x ↦ x / 2^b`. -/
theorem C28_rescale_roots (up : ℕ → ℤ) (b : ℤ) (deg : ℕ) (x : ℝ) :
    aeval x (toPoly (rescale up b deg).2 deg) = 0 ↔ aeval (2 ^ b * x) (toPoly up deg) = 0 := by
  obtain ⟨⟨u, hu, h⟩, -⟩ := C28_rescale up b deg
  rw [h, mul_eq_zero]
  exact ⟨fun h => h.resolve_left hu.ne', Or.inr⟩

/-- C28: rescaling with `-b` undoes rescaling with `b` up to a positive factor. -/
theorem C28_rescale_undo (up : ℕ → ℤ) (b : ℤ) (deg : ℕ) :
    ∃ u : ℝ, 0 < u ∧ ∀ x : ℝ,
      aeval x (toPoly (rescale (rescale up b deg).2 (-b) deg).2 deg) = u * aeval x (toPoly up deg) := by
  obtain ⟨⟨u, hu, h⟩, -⟩ := C28_rescale up b deg
  obtain ⟨⟨v, hv, h'⟩, -⟩ := C28_rescale (rescale up b deg).2 (-b) deg
  refine ⟨v * u, by positivity, fun x => ?_⟩
  rw [h', h, ← mul_assoc (2 ^ b : ℝ), ← zpow_add₀ two_ne_zero, add_neg_cancel, zpow_zero, one_mul, mul_assoc]

/-- C28: the removed binary content is the exact power of two common to the coefficients. -/
theorem C28_content (up : ℕ → ℤ) (deg : ℕ) (h : up deg ≠ 0) :
    toPoly up deg = C (2 ^ (removeContent up deg).1) * toPoly (removeContent up deg).2 deg ∧
      ∃ i ≤ deg, ¬ (2 : ℤ) ∣ (removeContent up deg).2 i :=
  ⟨(removeContent_poly up deg).symm, removeContent_odd h⟩

/-- C29: division by a dyadic root `c / 2^k`: `p = u (x - c/2^k) q` with `u > 0` and `q` of degree one less. -/
theorem C29_divide_root (up : ℕ → ℤ) (deg : ℕ) (c : ℤ) (k : ℕ) (hdeg : deg ≠ 0) (hlead : up deg ≠ 0)
    (hroot : aeval ((c : ℝ) / 2 ^ k) (toPoly up deg) = 0) :
    ∃ q : ℕ → ℤ, numerQuotient up deg c k = some (q, deg - 1) ∧ q (deg - 1) ≠ 0 ∧ ∃ u : ℝ, 0 < u ∧
      (toPoly up deg).map (Int.castRingHom ℝ)
        = C u * ((X - C ((c : ℝ) / 2 ^ k)) * (toPoly q (deg - 1)).map (Int.castRingHom ℝ)) := by
  obtain ⟨q, e, h1, h2⟩ := numerQuotient_spec (K := ℝ) hdeg hroot
  refine ⟨q, h1, (numerQuotient_ne hlead h1).2, 2 ^ e / 2 ^ ((deg - 1) * k), by positivity, ?_⟩
  refine Polynomial.funext fun x => ?_
  have hp : (2 : ℝ) ^ ((deg - 1) * k) ≠ 0 := by positivity
  have hx := h2 x
  simp only [eval_mul, eval_C, eval_sub, eval_X, eval_map] at hx ⊢
  have e1 : ∀ r : ℤ[X], eval₂ (Int.castRingHom ℝ) x r = aeval x r := fun r => rfl
  rw [e1, e1, div_mul_eq_mul_div, ← hx, mul_div_cancel_left₀ _ hp]

/-- C29: the roots of the quotient, with multiplicity, are the others. -/
theorem C29_other_roots (up : ℕ → ℤ) (deg : ℕ) (c : ℤ) (k : ℕ) (hdeg : deg ≠ 0) (hlead : up deg ≠ 0)
    (hroot : aeval ((c : ℝ) / 2 ^ k) (toPoly up deg) = 0) :
    ∃ q : ℕ → ℤ, numerQuotient up deg c k = some (q, deg - 1) ∧
      ((toPoly up deg).map (Int.castRingHom ℝ)).roots
        = (c : ℝ) / 2 ^ k ::ₘ ((toPoly q (deg - 1)).map (Int.castRingHom ℝ)).roots := by
  obtain ⟨q, h1, h2, u, hu, h3⟩ := C29_divide_root up deg c k hdeg hlead hroot
  refine ⟨q, h1, ?_⟩
  have hq : (toPoly q (deg - 1)).map (Int.castRingHom ℝ) ≠ 0 := rp_ne_zero h2
  rw [h3, roots_C_mul _ hu.ne', roots_mul (mul_ne_zero (X_sub_C_ne_zero _) hq), roots_X_sub_C]
  rfl

example : (numerQuotient ex2 3 (-1) 1).map (fun r => ((List.range 3).map r.1, r.2)) = some ([1, -3, 2], 2) := by
  decide +kernel

/-- C30: positive roots are below `2^M`. -/
theorem C30_root_bound (up : ℕ → ℤ) (deg : ℕ) (hlead : up deg ≠ 0) (x : ℝ) (hx : 0 < x)
    (h0 : aeval x (toPoly up deg) = 0) : x < 2 ^ boundRoots up deg := by
  by_contra h
  have := boundRoots_spec hlead x hx (Or.inl (not_lt.mp h))
  rw [h0, mul_zero] at this
  exact lt_irrefl _ this

/-- C30: if all coefficients have the sign of the leading one the code `-1` is returned and there is no
positive root. -/
theorem C30_no_root_code (up : ℕ → ℤ) (deg : ℕ) (hlead : up deg ≠ 0) (h : ∀ i < deg, (up deg).sign = (up i).sign) :
    boundRoots up deg = -1 ∧ ∀ x : ℝ, 0 < x → aeval x (toPoly up deg) ≠ 0 := by
  refine ⟨?_, fun x hx h0 => ?_⟩
  · unfold boundRoots
    exact if_pos ((fold_spec up deg ((bitSize (up deg) : ℤ) - 1) deg (-((bitSize (up deg) : ℤ) - 1))).2.mpr h)
  · have := boundRoots_spec hlead x hx (Or.inr h)
    rw [h0, mul_zero] at this
    exact lt_irrefl _ this

/-- C30: the value `-1` alone does not tell that there is no positive root: `8x - 1`. -/
theorem C30_minus_one_ambiguous :
    let up : ℕ → ℤ := fun i => if i = 0 then -1 else if i = 1 then 8 else 0
    boundRoots up 1 = -1 ∧ ∃ x : ℝ, 0 < x ∧ aeval x (toPoly up 1) = 0 := by
  refine ⟨by decide +kernel, 1 / 8, by norm_num, ?_⟩
  rw [aeval_toPoly]
  norm_num [Finset.sum_range_succ]

example : boundRoots ex1 2 = 2 ∧ ex1 2 ≠ 0 := by decide +kernel

/-- C31: the counter of sign variations. -/
theorem C31_variations (f : ℕ → ℤ) (deg : ℕ) (h : f deg ≠ 0) (hdeg : deg ≠ 0) :
    let v := signVariations ((toPoly f deg).map (Int.castRingHom ℝ))
    ∃ r, variations f deg = some r ∧ (r = v ∨ 3 ≤ r ∧ 3 ≤ v) := by
  refine ⟨_, by unfold variations; rw [if_neg hdeg], varLoop_poly h hdeg (by omega)⟩

/-- C31: the truncated path: a certified count is that of `p(x + 1)`, or both are at least three. -/
theorem C31_truncated (f : ℕ → ℤ) (deg nbits sz : ℕ) (h : f deg ≠ 0) (hsz : 2 ≤ sz ∨ deg ≤ sz) (nb : ℕ)
    (hr : truncate (shiftTab sz) f deg nbits sz = some (some nb)) :
    let v := signVariations (((toPoly f deg).comp (X + 1)).map (Int.castRingHom ℝ))
    nb = v ∨ 3 ≤ nb ∧ 3 ≤ v := by
  obtain ⟨r, h1, h2⟩ := truncate_spec (shiftTab sz) f deg nbits sz h hsz fun i _ => shiftTab_spec sz i
  rw [hr] at h1
  injection h1 with h1
  exact h2 nb h1.symm

/-- C31: a certified count of the truncated path is what the exact path reports, for counts below three;
otherwise both report at least three. -/
theorem C31_truncated_vs_exact (f : ℕ → ℤ) (deg nbits sz : ℕ) (h : f deg ≠ 0) (hdeg : 1 ≤ deg)
    (hsz : 2 ≤ sz ∨ deg ≤ sz) (nb : ℕ) (hr : truncate (shiftTab sz) f deg nbits sz = some (some nb)) :
    ∃ g r, dac (shiftTab sz) f deg sz = some g ∧ variations g deg = some r ∧ (nb = r ∨ 3 ≤ nb ∧ 3 ≤ r) := by
  obtain ⟨g, h1, h2, -⟩ := C27_taylor_dac f deg sz hdeg hsz
  have hg : g deg = f deg := (varShift_eq h h2).1
  obtain ⟨r, h3, h4⟩ := C31_variations g deg (by rw [hg]; exact h) (by omega)
  have h5 := C31_truncated f deg nbits sz h hsz nb hr
  refine ⟨g, r, h1, h3, ?_⟩
  rw [h2] at h4
  simp only at h4 h5
  omega

/-- C31: the Descartes test of the code on `(0,1)`: the number of sign variations of `(x+1)^deg p(1/(x+1))`,
or both are at least three. -/
theorem C31_descartes (f : ℕ → ℤ) (deg sz : ℕ) (h : f 0 ≠ 0) (hdeg : 1 ≤ deg) (hsz : 2 ≤ sz ∨ deg ≤ sz) :
    let v := signVariations (((toPoly (fun i => f (deg - i)) deg).comp (X + 1)).map (Int.castRingHom ℝ))
    ∃ r, descartes (shiftTab sz) f deg sz = some r ∧ (r = v ∨ 3 ≤ r ∧ 3 ≤ v) :=
  descartes_spec (shiftTab sz) f deg sz h hdeg hsz fun i _ => shiftTab_spec sz i

example : descartes (shiftTab 2) (fun i => if i = 0 then 2 ^ 400 else -2 ^ 400) 3 2 = some 1 ∧
    variations ex2 3 = some 2 ∧
    truncate (shiftTab 2) (fun i => if i = 6 then 2 ^ 100 else -2 ^ 100) 6 40 2 = some (some 1) := by decide +kernel

/-- A square-free polynomial has only simple real roots. -/
theorem simple_of_squarefree {p : ℤ[X]} (h : Squarefree (p.map (Int.castRingHom ℚ))) :
    Simple (p.map (Int.castRingHom ℝ)) := by
  have hs : (p.map (Int.castRingHom ℚ)).Separable := PerfectField.separable_iff_squarefree.mpr h
  have hm : p.map (Int.castRingHom ℝ) = (p.map (Int.castRingHom ℚ)).map (algebraMap ℚ ℝ) := by
    rw [Polynomial.map_map]; congr 1
  have hs2 : (p.map (Int.castRingHom ℝ)).Separable := by rw [hm]; exact hs.map
  intro x hx
  exact hs2.eval₂_derivative_ne_zero (RingHom.id ℝ) hx

/-- `2x^2 - 3x - 7` is square-free. -/
example : Squarefree ((toPoly ex1 2).map (Int.castRingHom ℚ)) := by
  refine Separable.squarefree ⟨C (-8 / 65), C (1 / 65) * derivative ((toPoly ex1 2).map (Int.castRingHom ℚ)), ?_⟩
  have h : (toPoly ex1 2).map (Int.castRingHom ℚ) = C 2 * X ^ 2 - C 3 * X - C 7 := by
    ext n
    rw [coeff_map, coeff_toPoly]
    rcases n with _ | _ | _ | n <;> simp [ex1, coeff_X, coeff_C]
  rw [h]
  simp only [derivative_sub, derivative_mul, derivative_C, derivative_X, derivative_X_pow]
  refine Polynomial.funext fun x => ?_
  simp
  ring

/-- C32: whatever the isolation returns isolates the real roots: the cells, in increasing order and disjoint,
contain exactly one root each (exact cells consist of a root), every root is in a cell, and the first `nbneg`
cells are those of the negative roots. (Holds for every polynomial on which the isolation returns, square-free
or not.) -/
theorem C32_isolation (fuel : ℕ) (up : ℕ → ℤ) (deg : ℕ) (roots : List Ival) (nbpos nbneg : ℕ) (hd : 1 ≤ deg)
    (hlead : up deg ≠ 0) (h : uspensky fuel up deg = .done roots nbpos nbneg) :
    Isolates ((toPoly up deg).map (Int.castRingHom ℝ)) Set.univ (roots.map icell) ∧ nbneg + nbpos = roots.length ∧
      (∀ r ∈ roots.take nbneg, (icell r).set ⊆ Set.Iio 0) ∧ ∀ r ∈ roots.drop nbneg, (icell r).set ⊆ Set.Ici 0 := by
  obtain ⟨h1, h2, h3, h4⟩ := uspensky_spec hd hlead h
  exact ⟨h1.iso, h2, h3, h4⟩

/-- C32: the number of records is the number of real roots. -/
theorem C32_count (fuel : ℕ) (up : ℕ → ℤ) (deg : ℕ) (roots : List Ival) (nbpos nbneg : ℕ) (hd : 1 ≤ deg)
    (hlead : up deg ≠ 0) (h : uspensky fuel up deg = .done roots nbpos nbneg) :
    roots.length = {x : ℝ | aeval x (toPoly up deg) = 0}.ncard := by
  rw [← List.length_map (f := icell), isolates_card (uspensky_spec hd hlead h).1.iso]
  simp only [rp_eval]

/-- C32: the function the solver calls, isolation followed by refinement, for square-free polynomials: it
returns, and what it returns isolates the real roots. -/
theorem C32_real_roots (shl : ℕ → ℤ) (prec : ℤ) (up : ℕ → ℤ) (deg : ℕ) (hd : 1 ≤ deg) (hlead : up deg ≠ 0)
    (hsq : Squarefree ((toPoly up deg).map (Int.castRingHom ℚ))) :
    ∃ K roots nbpos nbneg, (∀ fuel ≥ K, realRoots shl fuel prec up deg = .done roots nbpos nbneg) ∧
      Isolates ((toPoly up deg).map (Int.castRingHom ℝ)) Set.univ (roots.map icell) ∧
      nbneg + nbpos = roots.length ∧
      (∀ r ∈ roots.take nbneg, (icell r).set ⊆ Set.Iio 0) ∧ (∀ r ∈ roots.drop nbneg, (icell r).set ⊆ Set.Ici 0) := by
  obtain ⟨K, roots, nbpos, nbneg, h1, h2, h3, h4, h5, -⟩ :=
    realRoots_spec shl prec hd hlead (simple_of_squarefree hsq)
  exact ⟨K, roots, nbpos, nbneg, h1, h2, h3, h4, h5⟩




example : recs (uspensky 20 ex1 2) = some ([(-4, -2, false), (0, -2, false)], 1, 1) := by decide +kernel

example : recs (realRoots (fun _ => 0) 20 10 ex1 2) = some ([(-1296, 10, false), (2831, 10, false)], 1, 1) := by
  decide +kernel

example : recs (uspensky 20 ex2 3) = some ([(-4, -2, false), (0, 0, false), (1, 0, true)], 2, 1) := by decide +kernel

/-- C33: a cell `(c / 2^k, (c+1) / 2^k)` or an exact root `c / 2^k` of the scaled problem is recorded as its
product with `2^b`, for positive roots; it is recorded as exact iff it is. -/
theorem C33_merge_positive (bpos bneg : ℤ) (c k : ℕ) (exact : Bool) :
    (icell (merge bpos bneg false c k exact)).set
      = if exact = true then {2 ^ bpos * ((c : ℝ) / 2 ^ k)}
        else Set.Ioo (2 ^ bpos * ((c : ℝ) / 2 ^ k)) (2 ^ bpos * (((c : ℝ) + 1) / 2 ^ k)) := by
  obtain ⟨h1, h2, h3⟩ := merge_pos bpos bneg ⟨c, k, exact⟩
  simp only [scCell] at h1 h2 h3
  unfold Cell.set
  rw [h1, h2]
  cases exact
  · rw [h3 rfl]
  · rfl

/-- C33: for negative roots the mirror image with the bound for negative roots. -/
theorem C33_merge_negative (bpos bneg : ℤ) (c k : ℕ) (exact : Bool) :
    (icell (merge bpos bneg true c k exact)).set
      = if exact = true then {-(2 ^ bneg * ((c : ℝ) / 2 ^ k))}
        else Set.Ioo (-(2 ^ bneg * (((c : ℝ) + 1) / 2 ^ k))) (-(2 ^ bneg * ((c : ℝ) / 2 ^ k))) := by
  obtain ⟨h1, h2, h3⟩ := merge_neg bpos bneg ⟨c, k, exact⟩
  simp only [scCell] at h1 h2 h3
  unfold Cell.set
  rw [h1]
  cases exact
  · rw [(h3 rfl).1, (h3 rfl).2]; simp
  · rw [h2 rfl]; simp

example : merge 3 0 false 5 1 false = ⟨20, -2, false⟩ ∧ merge 3 2 true 5 1 false = ⟨-12, -1, false⟩ ∧
    merge 1 0 false 5 4 true = ⟨5, 3, true⟩ := by decide +kernel

/-- The width of the cell of a record. -/
private theorem icell_width (r : Ival) : (icell r).hi - (icell r).lo = 2 ^ (-r.k) := by
  unfold icell; simp

private theorem opposite {va vb : ℤ} {a b : ℝ} (h1 : 0 < (va : ℝ) * a) (h2 : 0 < (vb : ℝ) * b)
    (h : va.sign ≠ vb.sign) : a * b < 0 := by
  have hm : (va : ℝ) * vb < 0 := by
    rcases lt_trichotomy va 0 with ha | ha | ha
    · rcases lt_trichotomy vb 0 with hb | hb | hb
      · rw [Int.sign_eq_neg_one_of_neg ha, Int.sign_eq_neg_one_of_neg hb] at h; exact absurd rfl h
      · rw [hb] at h2; simp at h2
      · exact_mod_cast mul_neg_of_neg_of_pos ha hb
    · rw [ha] at h1; simp at h1
    · rcases lt_trichotomy vb 0 with hb | hb | hb
      · exact_mod_cast mul_neg_of_pos_of_neg ha hb
      · rw [hb] at h2; simp at h2
      · rw [Int.sign_eq_one_of_pos ha, Int.sign_eq_one_of_pos hb] at h; exact absurd rfl h
  by_contra hc
  have := mul_pos h1 h2
  nlinarith [mul_nonneg (not_lt.mp hc) (neg_pos.mpr hm).le]

/-- C34: one refinement step with `2^N` subdivisions, `N ≥ 2`. The old interval `(lo, hi)` is given with values
`va`, `vb` of the signs of the polynomial at its ends, which differ. The step returns; either it finds an exact
root inside of the interval and divides the polynomial by the linear factor, or it returns an interval
contained in the old one with a sign change at its ends and values of these signs. The width is divided by
`2^N` unless nothing was changed and the step announces that it failed, which it never does for `N = 2`. -/
theorem C34_step (shl : ℕ → ℤ) (fuel : ℕ) (hfuel : 4 ≤ fuel) (s : RSt) (N : ℕ) (hN : 2 ≤ N)
    (hlead : s.up s.deg ≠ 0) (hopen : s.rt.exact = false)
    (hlo : 0 < (s.va : ℝ) * aeval (icell s.rt).lo (toPoly s.up s.deg))
    (hhi : 0 < (s.vb : ℝ) * aeval (icell s.rt).hi (toPoly s.up s.deg)) (hopp : s.va.sign ≠ s.vb.sign) :
    ∃ t succ, refineN shl fuel s N = some (t, succ) ∧
      ((t.rt.exact = true ∧ (icell s.rt).lo < (icell t.rt).lo ∧ (icell t.rt).lo < (icell s.rt).hi ∧
          s.deg = t.deg + 1 ∧ t.up t.deg ≠ 0 ∧ ∃ u : ℝ, u ≠ 0 ∧ (toPoly s.up s.deg).map (Int.castRingHom ℝ)
            = C u * ((X - C (icell t.rt).lo) * (toPoly t.up t.deg).map (Int.castRingHom ℝ))) ∨
        (t.rt.exact = false ∧ t.up = s.up ∧ t.deg = s.deg ∧
          (icell s.rt).lo ≤ (icell t.rt).lo ∧ (icell t.rt).hi ≤ (icell s.rt).hi ∧
          0 < (t.va : ℝ) * aeval (icell t.rt).lo (toPoly s.up s.deg) ∧
          0 < (t.vb : ℝ) * aeval (icell t.rt).hi (toPoly s.up s.deg) ∧ t.va.sign ≠ t.vb.sign)) ∧
      (t.rt.exact = true ∨
        (icell t.rt).hi - (icell t.rt).lo = ((icell s.rt).hi - (icell s.rt).lo) / 2 ^ N ∨
        t = s ∧ succ = false ∧ N ≠ 2) := by
  rw [← rp_eval] at hlo hhi
  obtain ⟨t, succ, h1, h2, h3⟩ := refineN_spec shl hfuel hN hlead ⟨hopen, hlo, hhi, hopp⟩
  refine ⟨t, succ, h1, ?_, ?_⟩
  · cases h2 with
    | exact hex hl hdeg hlo hhi hfac _ => exact Or.inl ⟨hex, hlo, hhi, hdeg, hl, hfac⟩
    | smaller hup hdeg hbr hlo hhi =>
      obtain ⟨b1, b2, b3, b4⟩ := hbr
      rw [rp_eval, hup, hdeg] at b2 b3
      exact Or.inr ⟨b1, hup, hdeg, hlo, hhi, b2, b3, b4⟩
  · refine h3.imp_right (Or.imp_left fun hk => ?_)
    rw [icell_width, icell_width, hk, neg_add, zpow_add₀ two_ne_zero, zpow_neg _ (N : ℤ), zpow_natCast]
    rfl

/-- C34: the quadratic refinement loop ends, with a sub-interval with a sign change of width at most `2^-prec`
or an exact root in the interval. -/
theorem C34_loop (shl : ℕ → ℤ) (prec : ℤ) (a : ℕ) (s : RSt) (hlead : s.up s.deg ≠ 0) (hopen : s.rt.exact = false)
    (hlo : 0 < (s.va : ℝ) * aeval (icell s.rt).lo (toPoly s.up s.deg))
    (hhi : 0 < (s.vb : ℝ) * aeval (icell s.rt).hi (toPoly s.up s.deg)) (hopp : s.va.sign ≠ s.vb.sign) :
    ∃ K t, (∀ fuel ≥ 4, ∀ n ≥ K, qir shl fuel prec n (2 ^ (a + 1)) s = .done t) ∧
      ((t.rt.exact = true ∧ (icell s.rt).lo < (icell t.rt).lo ∧ (icell t.rt).lo < (icell s.rt).hi ∧
          aeval (icell t.rt).lo (toPoly s.up s.deg) = 0) ∨
        (t.rt.exact = false ∧ (icell s.rt).lo ≤ (icell t.rt).lo ∧ (icell t.rt).hi ≤ (icell s.rt).hi ∧
          aeval (icell t.rt).lo (toPoly s.up s.deg) * aeval (icell t.rt).hi (toPoly s.up s.deg) < 0 ∧
          (icell t.rt).hi - (icell t.rt).lo ≤ 2 ^ (-prec))) := by
  rw [← rp_eval] at hlo hhi
  obtain ⟨K, t, h1, h2, h3⟩ :=
    qir_spec shl prec (prec - s.rt.k).toNat (2 ^ (a + 1)) s (Int.self_le_toNat _) ⟨a, rfl⟩ hlead ⟨hopen, hlo, hhi, hopp⟩
  refine ⟨K, t, h1, ?_⟩
  simp only [← rp_eval]
  cases h2 with
  | exact hex hl hdeg hlo hhi hfac _ =>
    obtain ⟨u, -, hf⟩ := hfac
    exact Or.inl ⟨hex, hlo, hhi, by rw [hf]; simp⟩
  | smaller hup hdeg hbr hlo hhi =>
    obtain ⟨b1, b2, b3, b4⟩ := hbr
    rw [hup, hdeg] at b2 b3
    refine Or.inr ⟨b1, hlo, hhi, opposite b2 b3 b4, ?_⟩
    rw [icell_width]
    have := h3.resolve_left (by simp [b1])
    exact zpow_le_zpow_right₀ (by norm_num) (by omega)

/-- C34: all roots together: isolation followed by refinement, with precision `prec ≥ 0`, of a square-free
polynomial: the intervals still isolate the roots and have width at most `2^-prec`. -/
theorem C34_real_roots (shl : ℕ → ℤ) (prec : ℤ) (hprec : 0 ≤ prec) (up : ℕ → ℤ) (deg : ℕ) (hd : 1 ≤ deg)
    (hlead : up deg ≠ 0) (hsq : Squarefree ((toPoly up deg).map (Int.castRingHom ℚ))) :
    ∃ K roots nbpos nbneg, (∀ fuel ≥ K, realRoots shl fuel prec up deg = .done roots nbpos nbneg) ∧
      Isolates ((toPoly up deg).map (Int.castRingHom ℝ)) Set.univ (roots.map icell) ∧
      ∀ r ∈ roots, r.exact = true ∨ (icell r).hi - (icell r).lo ≤ 2 ^ (-prec) := by
  obtain ⟨K, roots, nbpos, nbneg, h1, h2, h3, h4, h5, h6, -⟩ :=
    realRoots_spec shl prec hd hlead (simple_of_squarefree hsq)
  refine ⟨K, roots, nbpos, nbneg, h1, h2, fun r hr => (h6 hprec r hr).imp_right fun h => ?_⟩
  rw [icell_width]
  exact zpow_le_zpow_right₀ (by norm_num) (by omega)

/-- C49: not more records than the degree: the arrays of `deg` entries do not overflow. -/
theorem C49_isolation_count (fuel : ℕ) (up : ℕ → ℤ) (deg : ℕ) (roots : List Ival) (nbpos nbneg : ℕ) (hd : 1 ≤ deg)
    (hlead : up deg ≠ 0) (h : uspensky fuel up deg = .done roots nbpos nbneg) :
    roots.length ≤ deg ∧ nbpos ≤ deg ∧ nbneg ≤ deg := by
  obtain ⟨h1, h2, -⟩ := uspensky_spec hd hlead h
  have := isolates_length (rp_ne_zero hlead) h1.iso
  rw [List.length_map] at this
  have h3 : (rp up deg).natDegree ≤ deg := natDegree_map_le.trans (natDegree_toPoly hlead).le
  omega

/-- C50: the isolation of a square-free polynomial ends (with more fuel than some bound the result is the same
regular one: no exit, no hang). -/
theorem C50_isolation_ends (up : ℕ → ℤ) (deg : ℕ) (hd : 1 ≤ deg) (hlead : up deg ≠ 0)
    (hsq : Squarefree ((toPoly up deg).map (Int.castRingHom ℚ))) :
    ∃ K roots nbpos nbneg, ∀ fuel ≥ K, uspensky fuel up deg = .done roots nbpos nbneg :=
  uspensky_ok hd hlead (simple_of_squarefree hsq)

/-- C50: the same for polynomials whose real roots are simple. -/
theorem C50_isolation_ends_simple (up : ℕ → ℤ) (deg : ℕ) (hd : 1 ≤ deg) (hlead : up deg ≠ 0)
    (hs : ∀ x : ℝ, aeval x (toPoly up deg) = 0 → aeval x (derivative (toPoly up deg)) ≠ 0) :
    ∃ K roots nbpos nbneg, ∀ fuel ≥ K, uspensky fuel up deg = .done roots nbpos nbneg := by
  refine uspensky_ok hd hlead fun x hx => ?_
  rw [rp_eval] at hx
  unfold rp
  rw [derivative_map, eval_map]
  exact hs x hx

end Verif.Props
