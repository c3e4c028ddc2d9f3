import Verif.Colon
import Verif.MulMatrix

/-!
Which rows of the truncated staircase get a trivial and which a dense row in the matrix of the colon computation, for `msolve -C`.
Source: src/msolve/hilbert.c 501-524, 2090-2170, 2257-2317, 2341-2419.

`lms` are the leading monomials, `lmb` the rows (C91), `x` is the last variable.  The entries of the dense rows are written by loops as in C92; here only the polynomial is recorded that is
used.  `none` is an access outside of an array.
-/
namespace Verif.ColonMat
open Verif.Orders Verif.Spec
open Verif.MulMatrix (eqXxn divXxn member)

variable {n : ℕ}

/-- `get_div_xn_bounded`, hilbert.c 501-524, called at 2099 with `maxdeg+1`; the array `div_not_xn` is left out, it is not used. -/
def divIdx (x : Fin n) (lms : List (Fin n → ℕ)) (maxdeg : ℕ) : List ℕ :=
  (List.range lms.length).filter fun i => decide (∑ j, lms.getD i 0 j ≤ maxdeg) && decide (lms.getD i 0 x ≠ 0)

/-- Reading entry `k` of an array with `cap` entries that was allocated with `calloc` and filled with `l`. -/
def readZ (cap : ℕ) (l : List ℕ) (k : ℕ) : Option ℕ :=
  match l[k]? with
  | some d => some d
  | none => if k < cap then some 0 else none

/-- One turn of the first loop over the rows, hilbert.c 2129-2170: the state is `count_lm` and the entries of `extra_nf`, an array of `dquot` entries. -/
def classStep (x : Fin n) (lms lmb : List (Fin n → ℕ)) (D : List ℕ) (s : ℕ × List ℕ) (i : ℕ) : Option (ℕ × List ℕ) :=
  if (member x lmb i).isSome then some s
  else match readZ lms.length D s.1 with
    | none => none
    | some d =>
      if eqXxn x (lmb.getD i 0) (lms.getD d 0) then some (s.1 + 1, s.2)
      else if D.any fun j => divXxn x (lmb.getD i 0) (lms.getD j 0) then
        if s.2.length < lmb.length then some (s.1, s.2 ++ [i]) else none
      else some s

/-- hilbert.c 2129-2170. -/
def classify (x : Fin n) (lms lmb : List (Fin n → ℕ)) (D : List ℕ) : Option (ℕ × List ℕ) := (List.range lmb.length).foldlM (classStep x lms lmb D) (0, [])

/-- From where a dense row is taken: from the element of the basis with this index, or from the extra normal form with this number. -/
inductive Src where
  | poly (d : ℕ)
  | nf (k : ℕ)
  deriving DecidableEq

/-- State of the second loop: (`triv_idx`, `triv_pos`), `dense_idx`, the rows of `dense_mat`, `count` and `count_nf`. -/
structure St where
  triv : List (ℕ × ℕ)
  dense : List ℕ
  src : List Src
  count : ℕ
  countNf : ℕ
  deriving DecidableEq

/-- One turn of the second loop over the rows, hilbert.c 2344-2419.  The arrays of the trivial rows have `dquot - (len_xn + count_not_lm)` entries, those of the dense rows
`len_xn + count_not_lm` (hilbert.c 2257-2317); `start_cf_gb_xn` has `len_xn` entries, so the return of `NULL` at 2385 is behind a read outside of it. -/
def fillStep (x : Fin n) (lms lmb : List (Fin n → ℕ)) (D extra : List ℕ) (s : St) (i : ℕ) : Option St :=
  match member x lmb i with
  | some j =>
    if s.triv.length < lmb.length - (D.length + extra.length) then some { s with triv := s.triv ++ [(i, j + i)] } else none
  | none =>
    if s.dense.length < D.length + extra.length then
      match readZ lms.length D s.count with
      | none => none
      | some d =>
        if eqXxn x (lmb.getD i 0) (lms.getD d 0) then
          if s.count < D.length then some { s with dense := s.dense ++ [i], src := s.src ++ [.poly d], count := s.count + 1 } else none
        else match readZ lmb.length extra s.countNf with
          | none => none
          | some e =>
            if i = e then some { s with dense := s.dense ++ [i], src := s.src ++ [.nf s.countNf], countNf := s.countNf + 1 }
            else some { s with dense := s.dense ++ [i] }
    else none

/-- hilbert.c 2341-2419. -/
def fill (x : Fin n) (lms lmb : List (Fin n → ℕ)) (D extra : List ℕ) : Option St := (List.range lmb.length).foldlM (fillStep x lms lmb D extra) ⟨[], [], [], 0, 0⟩

end Verif.ColonMat
