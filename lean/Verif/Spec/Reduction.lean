import Mathlib.Algebra.Field.ZMod
import Verif.Spec.Initial

/-! Specification only: reduction of polynomials with rational coefficients modulo a prime. -/

namespace Verif.Spec

open MvPolynomial

variable {n : Nat}

/-- The denominators of the coefficients are not divisible by `p`. -/
def IntegralAt (p : ℕ) (g : MvPolynomial (Fin n) ℚ) : Prop := ∀ u, ¬ p ∣ (g.coeff u).den

/-- The polynomial with all coefficients reduced modulo `p`. -/
noncomputable def reduceMod (p : ℕ) [Fact p.Prime] (g : MvPolynomial (Fin n) ℚ) : MvPolynomial (Fin n) (ZMod p) :=
  ∑ u ∈ g.support, monomial u (((g.coeff u).num : ZMod p) / ((g.coeff u).den : ZMod p))

end Verif.Spec
