import Verif.ColonVec

/-!
The dense rows of the matrix of the colon computation that are taken from elements of the basis, for `msolve -C`.
Source: src/msolve/hilbert.c 846-883.

The arrays `bexp` and `bcf` contain the terms of all elements of the basis one after the other, each with the greatest term first.
-/
namespace Verif.ColonPoly
open Verif.Orders Verif.Spec
open Verif.ColonVec (larger)

variable {n : ℕ}

/-- `while (b < 0 && k < end-2)`, hilbert.c 872-875; `end-2` is computed with signs here.  `r` are the first `end` terms, in reversed order; `none` is a read before the array. -/
def skip (r : List ((Fin n → ℕ) × ℕ)) (row : Fin n → ℕ) : ℕ → ℕ → Option ℕ
  | 0, _ => none
  | fuel + 1, k =>
    if k < r.length then
      if larger (r.getD k 0).1 row < 0 ∧ (k : ℤ) < (r.length : ℤ) - 2 then skip r row fuel (k + 1) else some k
    else none

/-- The loop over the columns in `copy_poly_in_matrixcol_no_zero`, hilbert.c 869-882: the entries of the row of the matrix, which was filled with zeros (hilbert.c 2275-2277).  The test
`k < end` does not stop at the first term of the polynomial, but at the first term of the array. -/
def rowLoop (p : ℕ) (r : List ((Fin n → ℕ) × ℕ)) : ℕ → List (Fin n → ℕ) → Option (List ℕ)
  | _, [] => some []
  | k, row :: rows =>
    if k < r.length then
      match skip r row (r.length + 1) k with
      | none => none
      | some k' =>
        if larger (r.getD k' 0).1 row = 0 then (rowLoop p r (k' + 1) rows).map fun v => (p - (r.getD k' 0).2) :: v
        else (rowLoop p r k' rows).map fun v => 0 :: v
    else (rowLoop p r k rows).map fun v => 0 :: v

/-- `copy_poly_in_matrixcol_no_zero`, hilbert.c 846-883; `all` are the terms of all elements of the basis, `start` and `pos` the beginning and the length of the polynomial. -/
def copyPoly (p : ℕ) (all : List ((Fin n → ℕ) × ℕ)) (start pos : ℕ) (rows : List (Fin n → ℕ)) : Option (List ℕ) := rowLoop p (all.take (start + pos)).reverse 0 rows

end Verif.ColonPoly
