import Mathlib.Algebra.Field.Defs
import Mathlib.Algebra.Algebra.Defs
import Mathlib.Algebra.BigOperators.Fin
import Verif.Spec.Monomial

/-! Specification only: polynomials as lists of terms, their coefficients and values. -/

namespace Verif.Spec

variable {n : ℕ} {K : Type*} [Field K]

/-- Coefficient of the monomial `m`. -/
def coeffAt (ts : List ((Fin n → ℕ) × K)) (m : Fin n → ℕ) : K := (ts.map fun t => if t.1 = m then t.2 else 0).sum

/-- The variable `k` as a monomial. -/
def var (k : Fin n) : Fin n → ℕ := fun j => if j = k then 1 else 0

/-- Value of a polynomial at a point of a commutative algebra. -/
def evalAt {A : Type*} [CommRing A] [Algebra K A] (ts : List ((Fin n → ℕ) × K)) (x : Fin n → A) : A :=
  (ts.map fun t => algebraMap K A t.2 * ∏ i, x i ^ t.1 i).sum

/-- What is used of a reduced Groebner basis for the degree reverse lexicographic order: `P 0, .., P (lml - 1)` are not
zero, their terms are in decreasing order, and no term of one is divisible by the leading monomial of another. -/
structure Reduced (lml : ℕ) (P : ℕ → List ((Fin n → ℕ) × K)) : Prop where
  ne : ∀ i, i < lml → P i ≠ []
  sorted : ∀ i, i < lml → (P i).Pairwise fun a b => Drl b.1 a.1
  red : ∀ i j, i < lml → j < lml → i ≠ j → ∀ t ∈ P i, ∀ s, (P j).head? = some s → ¬ s.1 ≤ t.1

/-- Leading monomial. -/
def lead (ts : List ((Fin n → ℕ) × K)) : Fin n → ℕ := (ts.head?.map Prod.fst).getD 0

end Verif.Spec
