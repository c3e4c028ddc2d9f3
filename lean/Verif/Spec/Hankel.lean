import Mathlib.Algebra.Field.Defs
import Mathlib.Algebra.BigOperators.Group.Finset.Basic

/-! Specification only: Hankel matrices. -/

namespace Verif.Spec

variable {K : Type*} [Field K]

/-- Row `t` of the product of the `d x d` Hankel matrix with entries `u (t + i)` and the vector `v`. -/
def hmul (u : ℕ → K) (d : ℕ) (v : ℕ → K) (t : ℕ) : K := ∑ i ∈ Finset.range d, u (t + i) * v i

/-- The Hankel matrix is regular: only the zero vector is mapped to zero. -/
def Regular (u : ℕ → K) (d : ℕ) : Prop := ∀ v, (∀ t, t < d → hmul u d v t = 0) → ∀ i, i < d → v i = 0

end Verif.Spec
