import Mathlib.Algebra.MvPolynomial.Eval
import Verif.Spec.Groebner

/-! Specification only: initial monomials of an ideal, reductions of integer polynomials. -/

namespace Verif.Spec

open MvPolynomial

variable {n : Nat} {K : Type*} [Field K]

/-- The leading monomials of the nonzero elements of an ideal. -/
def initials (m : MonomialOrder (Fin n)) (I : Ideal (MvPolynomial (Fin n) K)) : Set (Fin n →₀ ℕ) :=
  { d | ∃ f ∈ I, f ≠ 0 ∧ m.degree f = d }

/-- The ideal generated over a field by polynomials with integer coefficients. -/
noncomputable def idealOver (K : Type*) [Field K] {ι : Type*} (f : ι → MvPolynomial (Fin n) ℤ) :
    Ideal (MvPolynomial (Fin n) K) := Ideal.span (Set.range fun i => MvPolynomial.map (Int.castRingHom K) (f i))

end Verif.Spec
