import Verif.Spec.UPoly
import Mathlib.Algebra.BigOperators.Intervals
import Mathlib.Data.Int.Order.Basic
import Mathlib.Data.Sign.Basic
import Mathlib.Algebra.Order.Ring.Rat
import Mathlib.Tactic.Ring
import Mathlib.Tactic.FieldSimp
import Mathlib.Tactic.Linarith
import Mathlib.Tactic.Positivity

/-!
Evaluation of univariate polynomials with integer coefficients.
Source: src/usolve/evaluate.c, src/usolve/usolve.c 244-254, 349-364, src/usolve/refine.c 682-699.

A polynomial is an array `up : ℕ → ℤ` of which the entries `0..deg` are used. `mpz_t` integers are `ℤ`
(GMP is trusted), `mpz_mul_2exp(r, x, n)` is `x * 2 ^ n` and `mpz_sgn` is the sign.
-/
namespace Verif.UEval
open Verif.UPoly

/-- evaluate.c 23-36 (`mpz_upoly_eval_onehalf`) and usolve.c 349-360 (the loop of
`sgn_mpz_upoly_eval_onehalf`): `j` runs from `deg - 1` down to `0`. -/
def evalOneHalf (up : ℕ → ℤ) (deg : ℕ) : ℤ :=
  (List.range deg).reverse.foldl (fun v j => v + up j * 2 ^ (deg - j)) (up deg)

/-- usolve.c 244-254 (`mpz_poly_sign_at_one`): the sum of which the sign is returned. -/
def evalOne (up : ℕ → ℤ) (deg : ℕ) : ℤ :=
  (List.range (deg + 1)).foldl (fun v i => v + up i) 0

/-- evaluate.c 75-83 (`basic_mpz_poly_eval_at_point`). -/
def evalBasic (up : ℕ → ℤ) (deg : ℕ) (c : ℤ) : ℤ :=
  (List.range deg).reverse.foldl (fun v i => (v + up (i + 1)) * c) 0 + up 0

/-- evaluate.c 100-123 (`mpz_poly_eval_2exp_naive`) and 129-152 (`mpz_poly_eval_2exp_naive2`, the same
code with other parameter types). The argument `len` is `deg + 1`: the code allows `deg = -1`. -/
def eval2exp (up : ℕ → ℤ) (len : ℕ) (c : ℤ) (k : ℕ) : ℤ :=
  match len with
  | 0 => 0
  | 1 => up 0
  | deg + 1 =>
    (List.range (deg - 1)).reverse.foldl
      (fun v i => (v + up (i + 1) * 2 ^ ((deg - (i + 1)) * k)) * c) (up deg * c) + up 0 * 2 ^ (deg * k)

/-- refine.c 682-699 (`get_values_at_bounds`): the entries `tab[0]`, `tab[1]`. -/
def valuesAtBounds (up : ℕ → ℤ) (deg : ℕ) (numer : ℤ) (k : ℤ) : ℤ × ℤ :=
  if 0 < k then (eval2exp up (deg + 1) numer k.toNat, eval2exp up (deg + 1) (numer + 1) k.toNat)
  else (evalBasic up deg numer, evalBasic up deg (2 ^ (-k).toNat + numer))

theorem foldl_sum {α : Type*} (g : α → ℤ) (l : List α) (v : ℤ) :
    l.foldl (fun v j => v + g j) v = v + (l.map g).sum := by
  induction l generalizing v with
  | nil => simp
  | cons a l ih => simp [ih, add_assoc]

theorem sum_range_map (g : ℕ → ℤ) (n : ℕ) : ((List.range n).map g).sum = ∑ i ∈ Finset.range n, g i := by
  induction n with
  | zero => simp
  | succ n ih => simp [List.range_succ, Finset.sum_range_succ, ih]

theorem evalOneHalf_eq (up : ℕ → ℤ) (deg : ℕ) :
    evalOneHalf up deg = ∑ i ∈ Finset.range (deg + 1), up i * 2 ^ (deg - i) := by
  unfold evalOneHalf
  rw [foldl_sum, List.map_reverse, List.sum_reverse, sum_range_map, Finset.sum_range_succ]
  simp [add_comm]

theorem evalOne_eq (up : ℕ → ℤ) (deg : ℕ) : evalOne up deg = ∑ i ∈ Finset.range (deg + 1), up i := by
  unfold evalOne
  rw [foldl_sum, sum_range_map]; simp

/-- Horner's rule with weights: the loop from `m - 1` down to `0`. -/
theorem horner (a : ℕ → ℤ) (c : ℤ) (m : ℕ) (v : ℤ) :
    (List.range m).reverse.foldl (fun v i => (v + a i) * c) v
      = v * c ^ m + ∑ i ∈ Finset.range m, a i * c ^ (i + 1) := by
  induction m generalizing v with
  | zero => simp
  | succ m ih =>
    rw [List.range_succ, List.reverse_append, List.reverse_cons, List.reverse_nil, List.nil_append,
      List.cons_append, List.nil_append, List.foldl_cons, ih, Finset.sum_range_succ]
    ring

theorem evalBasic_eq (up : ℕ → ℤ) (deg : ℕ) (c : ℤ) :
    evalBasic up deg c = ∑ i ∈ Finset.range (deg + 1), up i * c ^ i := by
  unfold evalBasic
  rw [horner (fun i => up (i + 1)), Finset.sum_range_succ']
  simp

theorem eval2exp_eq (up : ℕ → ℤ) (deg : ℕ) (c : ℤ) (k : ℕ) :
    eval2exp up (deg + 1) c k = ∑ i ∈ Finset.range (deg + 1), up i * c ^ i * 2 ^ ((deg - i) * k) := by
  rcases deg with _ | deg
  · simp [eval2exp]
  · simp only [eval2exp, Nat.add_sub_cancel]
    rw [horner (fun i => up (i + 1) * 2 ^ ((deg + 1 - (i + 1)) * k)), Finset.sum_range_succ,
      Finset.sum_range_succ']
    have : ∀ i ∈ Finset.range deg, up (i + 1) * 2 ^ ((deg + 1 - (i + 1)) * k) * c ^ (i + 1)
        = up (i + 1) * c ^ (i + 1) * 2 ^ ((deg + 1 - (i + 1)) * k) := fun i _ => by ring
    rw [Finset.sum_congr rfl this]
    simp
    ring

/-- Value of the polynomial at `c / 2^k`, cleared of denominators. -/
theorem eval2exp_real {K : Type*} [Field K] [CharZero K] (up : ℕ → ℤ) (deg : ℕ) (c : ℤ) (k : ℕ) :
    (eval2exp up (deg + 1) c k : K)
      = 2 ^ (k * deg) * Polynomial.aeval ((c : K) / 2 ^ k) (toPoly up deg) := by
  rw [eval2exp_eq, aeval_toPoly, Finset.mul_sum]
  push_cast
  refine Finset.sum_congr rfl fun i hi => ?_
  have hi' : i ≤ deg := Nat.lt_succ_iff.mp (Finset.mem_range.mp hi)
  obtain ⟨j, rfl⟩ := Nat.exists_eq_add_of_le hi'
  have h2 : (2 : K) ≠ 0 := two_ne_zero
  rw [Nat.add_sub_cancel_left, div_pow, ← pow_mul, mul_comm j k, mul_add, pow_add]
  field_simp

theorem evalOneHalf_real {K : Type*} [Field K] [CharZero K] (up : ℕ → ℤ) (deg : ℕ) :
    (evalOneHalf up deg : K) = 2 ^ deg * Polynomial.aeval ((1 : K) / 2) (toPoly up deg) := by
  have := eval2exp_real (K := K) up deg 1 1
  rw [eval2exp_eq] at this
  rw [evalOneHalf_eq]
  simpa using this

theorem evalBasic_real {K : Type*} [CommRing K] (up : ℕ → ℤ) (deg : ℕ) (c : ℤ) :
    (evalBasic up deg c : K) = Polynomial.aeval (c : K) (toPoly up deg) := by
  rw [evalBasic_eq, aeval_toPoly]; push_cast; rfl

theorem evalOne_real {K : Type*} [CommRing K] (up : ℕ → ℤ) (deg : ℕ) :
    (evalOne up deg : K) = Polynomial.aeval (1 : K) (toPoly up deg) := by
  rw [evalOne_eq, aeval_toPoly]; push_cast; simp

end Verif.UEval
