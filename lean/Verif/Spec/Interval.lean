import Mathlib.Data.Int.Order.Basic
import Mathlib.Order.Lattice

/-!
Specification: interval arithmetic, the natural extension of Horner's rule.
-/
namespace Verif.Spec

/-- The product of the intervals `[s.1, s.2]` and `[a, b]`. -/
def mulIv (a b : ℤ) (s : ℤ × ℤ) : ℤ × ℤ :=
  (min (min (s.1 * a) (s.1 * b)) (min (s.2 * a) (s.2 * b)), max (max (s.1 * a) (s.1 * b)) (max (s.2 * a) (s.2 * b)))

/-- Horner's rule on the interval `[a / 2^k, b / 2^k]`, scaled: the interval after `i` turns. -/
def hornerIv (up : ℕ → ℤ) (deg k : ℕ) (a b : ℤ) : ℕ → ℤ × ℤ
  | 0 => (up deg, up deg)
  | i + 1 =>
    let s := mulIv a b (hornerIv up deg k a b i)
    (s.1 + up (deg - 1 - i) * 2 ^ (k * (i + 1)), s.2 + up (deg - 1 - i) * 2 ^ (k * (i + 1)))

/-- The interval has points on both sides of zero. -/
def Straddles (s : ℤ × ℤ) : Prop := s.1 < 0 ∧ 0 < s.2

end Verif.Spec
