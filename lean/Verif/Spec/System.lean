import Mathlib.Algebra.BigOperators.Group.Finset.Basic
import Mathlib.Algebra.Field.Basic
import Mathlib.Data.Int.Cast.Basic

/-!
Specification: the solutions of a system given by flat arrays.
-/
namespace Verif.Spec

/-- The value at `x` of the polynomial with the terms `off, …, off + len - 1`, in `n` variables: term `m` has coefficient
`coef m` and the exponents `exps (m * n), …, exps (m * n + n - 1)`. -/
def polyValue {K : Type*} [Field K] (n : ℕ) (coef : ℕ → K) (exps : ℕ → ℤ) (off len : ℕ) (x : ℕ → K) : K :=
  ∑ j ∈ Finset.range len, coef (off + j) * ∏ k ∈ Finset.range n, x k ^ (exps ((off + j) * n + k)).toNat

/-- `x` is a common zero of the polynomials, whose lengths are `lens`. -/
def SolvesSystem {K : Type*} [Field K] (n : ℕ) (lens : List ℕ) (coef : ℕ → K) (exps : ℕ → ℤ) (x : ℕ → K) : Prop :=
  ∀ i, i < lens.length → polyValue n coef exps (lens.take i).sum (lens.getD i 0) x = 0

end Verif.Spec
