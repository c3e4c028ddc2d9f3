import Verif.Colon

/-!
The vector of a normal form in the rows of the truncated staircase, for `msolve -C`.
Source: src/msolve/hilbert.c 580-638, 925-955, 2073-2089.

A polynomial is the list of its terms, with the greatest first, as in the hash table; exponents are small enough for `int32_t`.
-/
namespace Verif.ColonVec
open Verif.Orders Verif.Spec

variable {n : ℕ}

/-- The loop over the variables in `is_larger_exponent_bs`, hilbert.c 627-636: from the index `i` down to 2. -/
def cmpLoop (a b : Fin n → ℕ) : ℕ → ℤ
  | 0 => 0
  | 1 => 0
  | i + 2 => if ext a (i + 2) < ext b (i + 2) then 1 else if ext a (i + 2) > ext b (i + 2) then -1 else cmpLoop a b (i + 1)

/-- `is_larger_exponent`, `is_larger_exponent_bs`, hilbert.c 584-608, 614-638. -/
def larger (a b : Fin n → ℕ) : ℤ :=
  if ∑ i, a i < ∑ i, b i then -1 else if ∑ i, a i > ∑ i, b i then 1 else cmpLoop a b (n - 1)

/-- What happens in the search for the five smallest terms: it ends, it takes entries before the terms as a term, or it reads behind the rows. -/
inductive Scan where
  | ok
  | misread
  | outside
  deriving DecidableEq

/-- `while (!is_equal_exponent_bs (...)) k++`, hilbert.c 2080-2082: the rows from the one that was found on; `none` if the rows are left. -/
def scanRow (m : Fin n → ℕ) : List (Fin n → ℕ) → Option (List (Fin n → ℕ))
  | [] => none
  | r :: rs => if m = r then some (r :: rs) else scanRow m rs

/-- hilbert.c 2079-2083: `cnt` turns are left, `j` is the counter; the terms are read from the smallest one on. -/
def scanLoop (hm : List (Fin n → ℕ)) : ℕ → ℕ → List (Fin n → ℕ) → Scan
  | 0, _, _ => .ok
  | cnt + 1, j, rows =>
    if hm.length ≤ j then .misread
    else match scanRow (hm.getD (hm.length - 1 - j) 0) rows with
      | none => .outside
      | some rs => scanLoop hm cnt (j + 1) rs

/-- hilbert.c 2073-2084, for the normal form. -/
def scan (hm rows : List (Fin n → ℕ)) : Scan := scanLoop hm 5 0 rows

/-- `while (b < 0 && k < len-2)`, hilbert.c 942-946; `len-2` is computed with 32 bits without sign, `r` are the terms from the smallest on.  `none` is a read before the terms. -/
def skip (r : List ((Fin n → ℕ) × ℕ)) (row : Fin n → ℕ) : ℕ → ℕ → Option ℕ
  | 0, _ => none
  | fuel + 1, k =>
    if k < r.length then
      if larger (r.getD k 0).1 row < 0 ∧ k < (r.length + (2 ^ 32 - 2)) % 2 ^ 32 then skip r row fuel (k + 1) else some k
    else none

/-- The loop over the rows in `copy_extrapoly_in_vector_no_zero`, hilbert.c 939-953: the entries of the vector, which was filled with zeros (msolve.c 3926). -/
def copyLoop (r : List ((Fin n → ℕ) × ℕ)) : ℕ → List (Fin n → ℕ) → Option (List ℕ)
  | _, [] => some []
  | k, row :: rows =>
    if k < r.length then
      match skip r row (r.length + 1) k with
      | none => none
      | some k' =>
        if larger (r.getD k' 0).1 row = 0 then (copyLoop r (k' + 1) rows).map fun v => (r.getD k' 0).2 :: v
        else (copyLoop r k' rows).map fun v => 0 :: v
    else (copyLoop r k rows).map fun v => 0 :: v

/-- `copy_extrapoly_in_vector_no_zero`, hilbert.c 925-955. -/
def copyVec (terms : List ((Fin n → ℕ) × ℕ)) (rows : List (Fin n → ℕ)) : Option (List ℕ) := copyLoop terms.reverse 0 rows

end Verif.ColonVec
