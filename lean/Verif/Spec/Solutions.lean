import Mathlib.Algebra.Field.Basic
import Mathlib.Data.Int.Cast.Basic

/-!
Specification: the points described by a parametrization.
-/
namespace Verif.Spec.Solutions

variable {L : Type*} [Field L]

/-- The value of a polynomial with the coefficients `l`, constant first. -/
def value (l : List ℤ) (x : L) : L := l.foldr (fun (c : ℤ) (s : L) => (c : L) + x * s) 0

/-- The point with coordinates `z` (in the order of `names`) is one of the points described by the parametrization: the value of the last of
the variables `pnames` is a root of `elim`, variable `k` is `-coords_k / denom` there. -/
def Described (names pnames : List (List Char)) (elim denom : List ℤ) (coords : List (List ℤ)) (z : Fin names.length → L) : Prop :=
  ∃ x : ℕ → L, value elim (x (pnames.length - 1)) = 0 ∧ value denom (x (pnames.length - 1)) ≠ 0 ∧
    (∀ k, k < pnames.length - 1 → x k = - value (coords.getD k []) (x (pnames.length - 1)) / value denom (x (pnames.length - 1))) ∧
    ∀ i, ∃ k, pnames[k]? = some names[i] ∧ z i = x k

end Verif.Spec.Solutions
