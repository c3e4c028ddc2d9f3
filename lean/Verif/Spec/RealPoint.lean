import Verif.Spec.Isolate
import Mathlib.Algebra.BigOperators.Group.Finset.Basic

/-!
Specification: the points of a parametrization and boxes around them.
-/
namespace Verif.RealPoints
open Verif.Isolate

/-- A coordinate of `mpz_param_t`: the polynomial, its length, and the integer in the denominator. -/
structure Coord where
  c : ℕ → ℤ
  len : ℕ
  cf : ℤ

/-- `mpz_param_t` (`elim` has `nsols + 1` coefficients). -/
structure Param where
  elim : ℕ → ℤ
  nsols : ℕ
  denom : ℕ → ℤ
  dlen : ℕ
  coords : List Coord

/-- `coord_t`: the interval `[vdo / 2^kdo, vup / 2^kup]`. -/
structure Box where
  vdo : ℤ
  vup : ℤ
  kdo : ℕ
  kup : ℕ
  exact : Bool
  deriving DecidableEq

/-- The value of a polynomial with `len` coefficients. -/
noncomputable def lval (c : ℕ → ℤ) (len : ℕ) (x : ℝ) : ℝ := ∑ i ∈ Finset.range len, (c i : ℝ) * x ^ i

/-- The coordinate `- c(x) / (cf * denom(x))` at a root. -/
noncomputable def coordVal (p : Param) (q : Coord) (x : ℝ) : ℝ := -lval q.c q.len x / (lval p.denom p.dlen x * q.cf)

/-- The point of the parametrization at a root of the eliminating polynomial. -/
noncomputable def point (p : Param) (x : ℝ) : List ℝ := p.coords.map (fun q => coordVal p q x) ++ [x]

noncomputable def Box.lo (b : Box) : ℝ := (b.vdo : ℝ) / 2 ^ b.kdo
noncomputable def Box.hi (b : Box) : ℝ := (b.vup : ℝ) / 2 ^ b.kup

/-- The number lies in the interval. -/
def Box.has (b : Box) (y : ℝ) : Prop := b.lo ≤ y ∧ y ≤ b.hi

/-- The box of a point: one interval for each coordinate. -/
def Encloses (bs : List Box) (ys : List ℝ) : Prop := List.Forall₂ Box.has bs ys

/-- The cell of the last coordinate of a box. -/
noncomputable def lastCell (bs : List Box) : Cell :=
  match bs.getLast? with
  | none => ⟨0, 0, true⟩
  | some b => ⟨b.lo, b.hi, b.exact⟩

/-- How a number is written in the output: `v`, `v / 2` or `v / 2^k`. -/
inductive Writes : String → ℝ → Prop
  | int (v : ℤ) : Writes (toString v) v
  | half (v : ℤ) : Writes (toString v ++ " / 2") (v / 2)
  | pow (v : ℤ) (k : ℕ) : Writes (toString v ++ " / 2^" ++ toString k) (v / 2 ^ k)

end Verif.RealPoints
