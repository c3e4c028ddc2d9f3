import Verif.Spec.Variant

/-!
Specification: the arrays that a caller of the library function hands over and how a caller reads the arrays that come back.
-/
namespace Verif.Spec.Julia

open Verif.Spec.Text

/-- The arrays hold the polynomials `tss` in `n` variables: the numbers of terms, the exponents of all terms one after the other, numerator and denominator of all
coefficients. -/
structure Holds (n : ℕ) (tss : List (List Mon)) (lens : List ℕ) (exps cfs : List ℤ) : Prop where
  lens : lens = tss.map List.length
  exps : exps = tss.flatten.flatMap fun t => List.ofFn fun i : Fin n => (t.vec n i : ℤ)
  cfs : cfs = tss.flatten.flatMap fun t => [t.numer, t.denom]

/-- A list cut into pieces of the given lengths, without a remainder. -/
def cut {α : Type} : List ℕ → List α → Option (List (List α))
  | [], [] => some []
  | [], _ => none
  | k :: ks, l => if k ≤ l.length then (cut ks (l.drop k)).map fun r => l.take k :: r else none

/-- A parametrization in two arrays: eliminating polynomial, denominator, coordinates; the last entry of a coordinate is its constant denominator. -/
def readParam (lens : List ℕ) (cfs : List ℤ) : Option (List ℤ × List ℤ × List (List ℤ × ℤ)) :=
  match cut lens cfs with
  | some (e :: d :: cs) => (cs.mapM fun c : List ℤ => c.getLast?.map fun f => (c.dropLast, f)).map fun l => (e, d, l)
  | _ => none

/-- Intervals from a list of bounds. -/
def intervals : List ℚ → Option (List (ℚ × ℚ))
  | [] => some []
  | a :: b :: l => (intervals l).map fun r => (a, b) :: r
  | [_] => none

/-- `count` boxes with `n` coordinates in two arrays, one with the numerators of the bounds, one with the exponents of their denominators. -/
def readPoints (count n : ℕ) (num : List ℤ) (den : List ℕ) : Option (List (List (ℚ × ℚ))) :=
  if num.length = den.length then
    (intervals (List.zipWith (fun (a : ℤ) (k : ℕ) => (a : ℚ) / 2 ^ k) num den)).bind (cut (List.replicate count n))
  else none

/-- The string in a buffer; `none` if it is not terminated inside the buffer. -/
def cString (buf : List Char) : Option (List Char) :=
  if '\x00' ∈ buf then some (buf.takeWhile fun c => c != '\x00') else none

/-- The characters in a buffer, up to a terminating zero or its end. -/
def nameOf (buf : List Char) : List Char := buf.takeWhile fun c => c != '\x00'

end Verif.Spec.Julia
