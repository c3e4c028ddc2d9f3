import Mathlib.Data.Real.Basic
import Mathlib.Algebra.Order.Field.Power
import Mathlib.Algebra.Polynomial.Eval.Defs
import Mathlib.Order.Interval.Set.Defs
import Mathlib.Data.Set.Card

/-!
Specification of real root isolation.
-/
namespace Verif.Isolate
open Polynomial

/-- What the solver announces for one root: either the root itself or an open interval. -/
structure Cell where
  lo : ℝ
  hi : ℝ
  exact : Bool

/-- The numbers covered by a cell. -/
def Cell.set (r : Cell) : Set ℝ := if r.exact = true then {r.lo} else Set.Ioo r.lo r.hi

/-- The cells, in increasing order, isolate the zeros of `D` in the set `I`: every cell contains exactly
one zero and lies in `I`, every zero in `I` lies in a cell, the cells are pairwise disjoint and ordered. -/
structure Isolates (D : ℝ[X]) (I : Set ℝ) (out : List Cell) : Prop where
  unique : ∀ r ∈ out, ∃! x, x ∈ r.set ∧ D.eval x = 0
  sub : ∀ r ∈ out, r.set ⊆ I
  cover : ∀ x ∈ I, D.eval x = 0 → ∃ r ∈ out, x ∈ r.set
  order : out.Pairwise fun r s => ∀ x ∈ r.set, ∀ y ∈ s.set, x < y

/-- `interval` (data_usolve.c); `sign_left` is never read and left out. -/
structure Ival where
  numer : ℤ
  k : ℤ
  exact : Bool
  deriving DecidableEq

/-- The cell of a record: `k` is the number of bits after the point; the numerator of a record with
`k ≤ 0` is an integer, the width is always `2^(-k)`. -/
noncomputable def icell (r : Ival) : Cell :=
  ⟨r.numer * 2 ^ (if 0 < r.k then -r.k else 0), r.numer * 2 ^ (if 0 < r.k then -r.k else 0) + 2 ^ (-r.k), r.exact⟩

end Verif.Isolate
