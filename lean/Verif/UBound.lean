import Verif.USign
import Mathlib.Algebra.Order.Field.Power
/-!
Bound on the positive roots.
Source: src/usolve/usolve.c 70-113 (`bound_roots`).
-/
namespace Verif.UBound
open Verif.UPoly Verif.USign Polynomial

/-- usolve.c 92-105: the quotient of `pow` by `deg - i`, rounded up in the way of the code. -/
def expo (pow d : ℤ) : ℤ :=
  let pow2 := if 0 < pow then pow.tdiv d else -((-pow).tdiv d)
  if pow2 * d ≠ pow then pow2 + 1 else pow2

/-- usolve.c 87-109: one turn of the loop; `st` is the pair of `M` and `b`. -/
def boundStep (up : ℕ → ℤ) (deg : ℕ) (l : ℤ) (st : ℤ × Bool) (i : ℕ) : ℤ × Bool :=
  if (up deg).sign ≠ (up i).sign then
    let pow2 := expo ((bitSize (up i) : ℤ) - l) ((deg : ℤ) - i)
    (if st.1 < pow2 then pow2 else st.1, false)
  else st

/-- usolve.c 77-113 (`bound_roots`). The machine integers are taken to be large enough. -/
def boundRoots (up : ℕ → ℤ) (deg : ℕ) : ℤ :=
  let l : ℤ := (bitSize (up deg) : ℤ) - 1
  let r := (List.range deg).foldl (boundStep up deg l) (-l, true)
  if r.2 = true then -1 else r.1 + 1

theorem expo_le (pow d : ℤ) (hd : 0 < d) : pow ≤ expo pow d * d := by
  unfold expo
  have key : ∀ q : ℤ, pow - d < q * d → pow ≤ (if q * d ≠ pow then q + 1 else q) * d := by
    intro q hq
    split
    · rw [add_mul, one_mul]; omega
    · rename_i h
      exact (not_not.mp h).ge
  refine key _ ?_
  split
  · rename_i h
    have h1 := Int.mul_tdiv_add_tmod pow d
    have h2 := Int.tmod_lt_of_pos pow hd
    rw [mul_comm] at h1
    omega
  · rename_i h
    have h1 := Int.mul_tdiv_add_tmod (-pow) d
    have h2 := Int.tmod_nonneg d (show 0 ≤ -pow by omega)
    rw [neg_mul, mul_comm]
    omega

theorem fold_spec (up : ℕ → ℤ) (deg : ℕ) (l : ℤ) (n : ℕ) (M0 : ℤ) :
    let r := (List.range n).foldl (boundStep up deg l) (M0, true)
    (∀ i < n, (up deg).sign ≠ (up i).sign → expo ((bitSize (up i) : ℤ) - l) ((deg : ℤ) - i) ≤ r.1) ∧
      (r.2 = true ↔ ∀ i < n, (up deg).sign = (up i).sign) := by
  induction n with
  | zero => simp
  | succ n ih =>
    rw [List.range_succ, List.foldl_append, List.foldl_cons, List.foldl_nil]
    generalize (List.range n).foldl (boundStep up deg l) (M0, true) = r at ih ⊢
    obtain ⟨h1, h2⟩ := ih
    simp only
    unfold boundStep
    by_cases hc : (up deg).sign ≠ (up n).sign
    · rw [if_pos hc]
      refine ⟨fun i hi hne => ?_, ?_⟩
      · rcases Nat.lt_succ_iff_lt_or_eq.mp hi with hi | rfl
        · have := h1 i hi hne
          simp only
          split <;> omega
        · simp only
          split <;> omega
      · simp only [Bool.false_eq_true, false_iff]
        intro h
        exact hc (h n (by omega))
    · rw [if_neg hc]
      push Not at hc
      refine ⟨fun i hi hne => ?_, h2.trans ⟨fun h i hi => ?_, fun h i hi => h i (by omega)⟩⟩
      · rcases Nat.lt_succ_iff_lt_or_eq.mp hi with hi | rfl
        · exact h1 i hi hne
        · exact absurd hc hne
      · rcases Nat.lt_succ_iff_lt_or_eq.mp hi with hi | rfl
        · exact h i hi
        · exact hc

theorem abs_lt_bitSize (x : ℤ) : |x| < 2 ^ bitSize x := by
  unfold bitSize
  split
  · rename_i h; rw [h]; simp
  · rw [Int.abs_eq_natAbs]
    exact_mod_cast Nat.lt_size_self x.natAbs

theorem bitSize_le_abs {x : ℤ} (hx : x ≠ 0) : 1 ≤ bitSize x ∧ (2 : ℤ) ^ (bitSize x - 1) ≤ |x| := by
  unfold bitSize
  rw [if_neg hx]
  have h := Nat.size_pos.mpr (Int.natAbs_pos.mpr hx)
  refine ⟨h, ?_⟩
  have := Nat.lt_size.mp (show x.natAbs.size - 1 < x.natAbs.size by omega)
  rw [Int.abs_eq_natAbs]
  exact_mod_cast this

/-- All real numbers from the bound on are not roots, and the sign is that of the leading coefficient. -/
theorem boundRoots_spec {up : ℕ → ℤ} {deg : ℕ} (hup : up deg ≠ 0) (x : ℝ) (hx0 : 0 < x)
    (hx : (2 : ℝ) ^ boundRoots up deg ≤ x ∨ ∀ i < deg, (up deg).sign = (up i).sign) :
    0 < ((up deg).sign : ℝ) * aeval x (toPoly up deg) := by
  set s : ℝ := ((up deg).sign : ℝ) with hs
  set A : ℝ := |(up deg : ℝ)| with hA
  have hApos : 0 < A := abs_pos.mpr (by exact_mod_cast hup)
  have hsA : s * (up deg : ℝ) = A := by
    rw [hs, hA]
    have := Int.sign_mul_self_eq_abs (up deg)
    exact_mod_cast this
  rw [aeval_toPoly, Finset.mul_sum, Finset.sum_range_succ, ← mul_assoc s, hsA]
  have hsame : ∀ i, (up deg).sign = (up i).sign → 0 ≤ s * ((up i : ℝ) * x ^ i) := by
    intro i hi
    rw [← mul_assoc, hs, hi]
    refine mul_nonneg ?_ (by positivity)
    have := Int.sign_mul_self_eq_abs (up i)
    have h2 : (0 : ℤ) ≤ (up i).sign * up i := by rw [this]; positivity
    exact_mod_cast h2
  by_cases hall : ∀ i < deg, (up deg).sign = (up i).sign
  · refine add_pos_of_nonneg_of_pos (Finset.sum_nonneg fun i hi => hsame i (hall i (Finset.mem_range.mp hi))) ?_
    positivity
  have hx := hx.resolve_right hall
  obtain ⟨f1, f2⟩ := fold_spec up deg ((bitSize (up deg) : ℤ) - 1) deg (-((bitSize (up deg) : ℤ) - 1))
  unfold boundRoots at hx
  simp only at hx f1 f2
  generalize (List.range deg).foldl (boundStep up deg ((bitSize (up deg) : ℤ) - 1))
    (-((bitSize (up deg) : ℤ) - 1), true) = r at hx f1 f2
  rw [if_neg (fun h => hall (f2.mp h))] at hx
  set y : ℝ := (2 : ℝ) ^ r.1 with hy
  have hypos : 0 < y := by positivity
  have hxy : 2 * y ≤ x := by
    rw [zpow_add_one₀ (by norm_num)] at hx
    linarith
  have hterm : ∀ i < deg, -(A * y ^ (deg - i) * x ^ i) ≤ s * ((up i : ℝ) * x ^ i) := by
    intro i hi
    by_cases hc : (up deg).sign = (up i).sign
    · refine le_trans ?_ (hsame i hc)
      have : 0 ≤ A * y ^ (deg - i) * x ^ i := by positivity
      linarith
    · have he := f1 i hi hc
      have hpow := expo_le ((bitSize (up i) : ℤ) - ((bitSize (up deg) : ℤ) - 1)) ((deg : ℤ) - i) (by omega)
      have hle : ((bitSize (up i) : ℤ)) ≤ r.1 * ((deg : ℤ) - i) + ((bitSize (up deg) : ℤ) - 1) := by
        have := mul_le_mul_of_nonneg_right he (show (0 : ℤ) ≤ (deg : ℤ) - i by omega)
        omega
      have habs : |(up i : ℝ)| ≤ A * y ^ (deg - i) := by
        obtain ⟨b1, b2⟩ := bitSize_le_abs hup
        have h1 : |(up i : ℝ)| ≤ (2 : ℝ) ^ (bitSize (up i) : ℤ) := by
          rw [zpow_natCast]
          exact_mod_cast (abs_lt_bitSize (up i)).le
        have h2 : (2 : ℝ) ^ ((bitSize (up deg) : ℤ) - 1) ≤ A := by
          rw [show ((bitSize (up deg) : ℤ) - 1) = ((bitSize (up deg) - 1 : ℕ) : ℤ) by omega, zpow_natCast, hA]
          exact_mod_cast b2
        calc |(up i : ℝ)| ≤ (2 : ℝ) ^ (bitSize (up i) : ℤ) := h1
          _ ≤ (2 : ℝ) ^ (r.1 * ((deg : ℤ) - i) + ((bitSize (up deg) : ℤ) - 1)) :=
            zpow_le_zpow_right₀ (by norm_num) hle
          _ = (2 : ℝ) ^ ((bitSize (up deg) : ℤ) - 1) * y ^ (deg - i) := by
            rw [zpow_add₀ (by norm_num), hy, ← zpow_natCast, ← zpow_mul, mul_comm,
              show (((deg - i : ℕ)) : ℤ) = (deg : ℤ) - i by omega]
          _ ≤ _ := mul_le_mul_of_nonneg_right h2 (by positivity)
      have hs1 : |s| ≤ 1 := by
        rw [hs]
        rcases Int.sign_trichotomy (up deg) with h | h | h <;> rw [h] <;> norm_num
      have h3 : |s * ((up i : ℝ) * x ^ i)| ≤ A * y ^ (deg - i) * x ^ i := by
        rw [abs_mul, abs_mul, abs_of_pos (show 0 < x ^ i by positivity)]
        calc |s| * (|(up i : ℝ)| * x ^ i) ≤ 1 * (|(up i : ℝ)| * x ^ i) :=
              mul_le_mul_of_nonneg_right hs1 (by positivity)
          _ ≤ _ := by rw [one_mul]; exact mul_le_mul_of_nonneg_right habs (by positivity)
      exact (abs_le.mp h3).1
  have hsum : ∀ n, ∑ i ∈ Finset.range n, y ^ (n - i) * x ^ i < x ^ n := by
    intro n
    induction n with
    | zero => simp
    | succ n ih =>
      rw [Finset.sum_range_succ]
      have e : ∑ i ∈ Finset.range n, y ^ (n + 1 - i) * x ^ i = y * ∑ i ∈ Finset.range n, y ^ (n - i) * x ^ i := by
        rw [Finset.mul_sum]
        refine Finset.sum_congr rfl fun i hi => ?_
        rw [show n + 1 - i = (n - i) + 1 by have := Finset.mem_range.mp hi; omega, pow_succ]; ring
      rw [e, show n + 1 - n = 1 by omega, pow_one, pow_succ]
      have hxn : 0 < x ^ n := by positivity
      nlinarith
  have h1 : -(A * ∑ i ∈ Finset.range deg, y ^ (deg - i) * x ^ i) ≤
      ∑ i ∈ Finset.range deg, s * ((up i : ℝ) * x ^ i) := by
    rw [Finset.mul_sum, ← Finset.sum_neg_distrib]
    refine Finset.sum_le_sum fun i hi => ?_
    have := hterm i (Finset.mem_range.mp hi)
    rw [mul_assoc] at this
    exact this
  have h2 := mul_lt_mul_of_pos_left (hsum deg) hApos
  linarith

end Verif.UBound
