import Mathlib.RingTheory.MvPolynomial.Basic
import Mathlib.Algebra.Polynomial.AlgebraMap
import Mathlib.RingTheory.Ideal.Span

/-! Specification only: an ideal in shape position. -/

namespace Verif.Spec

open MvPolynomial

/-- The ideal is generated by `w(x_last)` and the polynomials `x_k + c_k(x_last)`, where `w` is monic and the degrees of the `c_k` are smaller
than the degree of `w`. -/
structure Shape {K : Type*} [Field K] {n : ℕ} (I : Ideal (MvPolynomial (Fin n) K)) (last : Fin n) (w : Polynomial K)
    (c : Fin n → Polynomial K) : Prop where
  monic : w.Monic
  degree : ∀ k, k ≠ last → (c k).degree < w.degree
  span : I = Ideal.span ({Polynomial.aeval (X last) w} ∪ { g | ∃ k : Fin n, k ≠ last ∧ g = X k + Polynomial.aeval (X last) (c k) })

end Verif.Spec
