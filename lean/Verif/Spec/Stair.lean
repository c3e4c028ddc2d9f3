import Mathlib.RingTheory.MvPolynomial.Groebner
import Mathlib.Data.Set.Card
import Mathlib.LinearAlgebra.Dimension.Finrank

/-! The staircase of an ideal, and the condition on it under which the matrix of the multiplication by a variable is computed. -/

namespace Verif.Spec

open MvPolynomial

variable {n : ℕ} {K : Type*} [Field K]

/-- A standard monomial: it is not the leading monomial of an element of the ideal. -/
def Standard (mo : MonomialOrder (Fin n)) (I : Ideal (MvPolynomial (Fin n) K)) (m : Fin n →₀ ℕ) : Prop := ∀ g ∈ I, g ≠ 0 → mo.degree g ≠ m

/-- A corner of the staircase: a minimal monomial that is not standard. -/
def Corner (mo : MonomialOrder (Fin n)) (I : Ideal (MvPolynomial (Fin n) K)) (m : Fin n →₀ ℕ) : Prop :=
  ¬ Standard mo I m ∧ ∀ m', m' ≤ m → m' ≠ m → Standard mo I m'

/-- The standard monomials whose product with the variable needs a normal form: it is neither standard nor a corner. -/
def steps (mo : MonomialOrder (Fin n)) (I : Ideal (MvPolynomial (Fin n) K)) (x : Fin n) : Set (Fin n →₀ ℕ) :=
  {m | Standard mo I m ∧ ¬ Standard mo I (m + Finsupp.single x 1) ∧ ¬ Corner mo I (m + Finsupp.single x 1)}

/-- How many of them are allowed, for the option `-u`: none, a quarter, half, three quarters (of the monomials that are left), all. -/
def allowed (us : ℤ) (t : ℕ) : ℕ :=
  if us = 0 then 0 else if us = 1 then (t + 1) / 4 else if us = 2 then t / 2 else if us = 3 then (3 * t + 1) / 4 else t

/-- The staircase is accepted. -/
def StairOk (us : ℤ) (mo : MonomialOrder (Fin n)) (I : Ideal (MvPolynomial (Fin n) K)) (x : Fin n) : Prop :=
  (steps mo I x).ncard ≤ allowed us (Module.finrank K (MvPolynomial (Fin n) K ⧸ I) - {m | Corner mo I m ∧ m x ≠ 0}.ncard)

end Verif.Spec
