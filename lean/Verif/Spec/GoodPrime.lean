import Verif.Spec.ProblemQ
import Verif.Spec.Shape
import Mathlib.Algebra.Polynomial.Derivative
import Mathlib.Algebra.Polynomial.FieldDivision

/-!
Specification: the primes for which a parametrization over the rationals can be computed from images.
-/
namespace Verif.Spec.Text

open Polynomial

/-- The coordinate `c` in shape position with the denominator `w' / deg w`. -/
noncomputable def scaled (w c : ℚ[X]) : ℚ[X] := c * (C ((w.natDegree : ℚ)⁻¹) * derivative w) % w

/-- A prime that is lucky for the polynomials and, if their ideal is in shape position, does not divide the number of solutions or the numerators of the leading
coefficients of the scaled coordinates. -/
structure GoodPrime {n : ℕ} (m : MonomialOrder (Fin n)) (tss : List (List Mon)) (p : ℕ) : Prop where
  lucky : LuckyPrime m tss p
  degree : ∀ last w c, Shape (idealQ n tss) last w c → w.natDegree ≠ 0 → ¬ p ∣ w.natDegree
  coord : ∀ last w c, Shape (idealQ n tss) last w c → ∀ k, k ≠ last → scaled w (c k) ≠ 0 → ¬ (p : ℤ) ∣ (scaled w (c k)).leadingCoeff.num

end Verif.Spec.Text
