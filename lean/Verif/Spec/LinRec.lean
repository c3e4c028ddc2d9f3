import Mathlib.Algebra.Polynomial.Degree.Definitions
import Mathlib.Algebra.Polynomial.Monic

/-! Specification only: linear recurrences and minimal polynomials of sequences. -/

namespace Verif.Spec

open Polynomial

variable {K : Type*} [Field K]

/-- The sequence `a` satisfies the linear recurrence with characteristic polynomial `f`:
`f_0 a_i + f_1 a_(i+1) + ... = 0` for all `i`. -/
def Annihilates (f : K[X]) (a : ℕ → K) : Prop :=
  ∀ i, ∑ j ∈ Finset.range (f.natDegree + 1), f.coeff j * a (i + j) = 0

/-- `f` is the minimal polynomial of the sequence. -/
def IsMinPoly (f : K[X]) (a : ℕ → K) : Prop :=
  f.Monic ∧ Annihilates f a ∧ ∀ g, Annihilates g a → f ∣ g

end Verif.Spec
