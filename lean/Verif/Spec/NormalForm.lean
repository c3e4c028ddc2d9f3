import Verif.Spec.Groebner

/-! Specification only: normal forms modulo a set of polynomials. -/

namespace Verif.Spec

open MvPolynomial

variable {n : Nat} {K : Type*} [Field K]

/-- `r` is a normal form of `f` modulo `G`: it differs from `f` by an element of the ideal generated by `G`
and none of its monomials is divisible by the leading monomial of an element of `G`. -/
def IsNormalForm (m : MonomialOrder (Fin n)) (G : Set (MvPolynomial (Fin n) K)) (f r : MvPolynomial (Fin n) K) : Prop :=
  f - r ∈ Ideal.span G ∧ ∀ u ∈ r.support, ∀ g ∈ G, g ≠ 0 → ¬ m.degree g ≤ u

end Verif.Spec
