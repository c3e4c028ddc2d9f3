import Verif.Spec.Lifted
import Verif.Spec.Interval
import Verif.Spec.Shape
import Mathlib.Algebra.Algebra.Rat
import Mathlib.Data.Real.Basic

/-!
Specification: printed boxes of the real solutions.
-/
namespace Verif.Spec.Solutions

open Polynomial

/-- The lists are the exact parametrization of the ideal, up to the integer factors. -/
def ExactFor {n : ℕ} (I : Ideal (MvPolynomial (Fin n) ℚ)) (elim : List ℤ) (coords : List (List ℤ × ℤ)) : Prop :=
  ∀ (last : Fin n) (w : ℚ[X]) (c : Fin n → ℚ[X]), last.val = n - 1 → Shape I last w c →
    (∀ i, i ≤ w.natDegree → elimErr w elim i = 0) ∧ ∀ k, k ≠ last → ∀ j, j < w.natDegree → coordErr w (c k) elim (coords.getD k ([], 1)) j = 0

/-- Different real roots have a distance of `2^-k` at least. -/
def RootsApart (elim : List ℤ) (k : ℕ) : Prop := ∀ x y : ℝ, value elim x = 0 → value elim y = 0 → x ≠ y → 1 / 2 ^ k ≤ |x - y|

/-- In the evaluation of `denom` by Horner's rule on an interval `[r / 2^k, (r + 1) / 2^k]`, `k ≥ k0`, with a root of `elim` no intermediate interval has points on both
sides of zero. -/
def HornerSafe (elim denom : List ℤ) (k0 : ℕ) : Prop :=
  ∀ x : ℝ, value elim x = 0 → ∀ k ≥ k0, ∀ r : ℤ, (r : ℝ) / 2 ^ k ≤ x → x ≤ ((r : ℝ) + 1) / 2 ^ k → ∀ j < denom.length - 1,
    ¬ Straddles (hornerIv (fun i => denom.getD i 0) (denom.length - 1) k r (r + 1) j)

/-- The list of the real zeros, each once. -/
def RealZeros {n : ℕ} (I : Ideal (MvPolynomial (Fin n) ℚ)) (sols : List (Fin n → ℝ)) : Prop :=
  sols.Nodup ∧ ∀ z, z ∈ sols ↔ ∀ f ∈ I, MvPolynomial.aeval z f = 0

/-- The box has one interval for each variable, in the order `ord`, and contains the point (with coordinates in the order `names`). -/
def InBox (names ord : List (List Char)) (b : List (ℚ × ℚ)) (z : Fin names.length → ℝ) : Prop :=
  b.length = names.length ∧ ∀ i, ∃ (k : ℕ) (q : ℚ × ℚ), ord[k]? = some names[i] ∧ b[k]? = some q ∧ (q.1 : ℝ) ≤ z i ∧ z i ≤ q.2

end Verif.Spec.Solutions
