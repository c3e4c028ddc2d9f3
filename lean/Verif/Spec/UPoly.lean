import Mathlib.Algebra.Polynomial.AlgebraMap
import Mathlib.Algebra.Polynomial.BigOperators

/-!
Specification side of the univariate solver: the polynomial stored in an array of integers.
-/
namespace Verif.UPoly
open Polynomial

/-- The polynomial whose coefficient of degree `i` is entry `i` of the array, for `i ≤ deg`. -/
noncomputable def toPoly (up : ℕ → ℤ) (deg : ℕ) : ℤ[X] :=
  ∑ i ∈ Finset.range (deg + 1), C (up i) * X ^ i

theorem coeff_toPoly (up : ℕ → ℤ) (deg i : ℕ) :
    (toPoly up deg).coeff i = if i ≤ deg then up i else 0 := by
  simp only [toPoly, finsetSum_coeff, coeff_C_mul, coeff_X_pow]
  simp only [mul_ite, mul_one, mul_zero]
  rw [Finset.sum_ite_eq]
  simp

theorem toPoly_congr {up vp : ℕ → ℤ} {deg : ℕ} (h : ∀ i ≤ deg, up i = vp i) :
    toPoly up deg = toPoly vp deg := by
  refine Finset.sum_congr rfl fun i hi => ?_
  rw [h i (Nat.lt_succ_iff.mp (Finset.mem_range.mp hi))]

theorem natDegree_toPoly_le (up : ℕ → ℤ) (deg : ℕ) : (toPoly up deg).natDegree ≤ deg := by
  rw [natDegree_le_iff_coeff_eq_zero]
  intro i hi
  rw [coeff_toPoly, if_neg (by omega)]

theorem natDegree_toPoly {up : ℕ → ℤ} {deg : ℕ} (h : up deg ≠ 0) :
    (toPoly up deg).natDegree = deg := by
  refine le_antisymm (natDegree_toPoly_le up deg) (le_natDegree_of_ne_zero ?_)
  rw [coeff_toPoly, if_pos le_rfl]
  exact h

theorem leadingCoeff_toPoly {up : ℕ → ℤ} {deg : ℕ} (h : up deg ≠ 0) :
    (toPoly up deg).leadingCoeff = up deg := by
  rw [leadingCoeff, natDegree_toPoly h, coeff_toPoly, if_pos le_rfl]

theorem toPoly_ne_zero {up : ℕ → ℤ} {deg : ℕ} (h : up deg ≠ 0) : toPoly up deg ≠ 0 := by
  intro h0
  have := coeff_toPoly up deg deg
  rw [h0, if_pos le_rfl] at this
  exact h (by simpa using this.symm)

theorem aeval_toPoly {K : Type*} [CommRing K] (up : ℕ → ℤ) (deg : ℕ) (x : K) :
    aeval x (toPoly up deg) = ∑ i ∈ Finset.range (deg + 1), (up i : K) * x ^ i := by
  simp [toPoly, map_sum]

end Verif.UPoly
