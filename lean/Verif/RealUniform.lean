import Verif.RealAll

/-!
The precision needed by the interval evaluation does not depend on a common factor of the coefficients.
-/
namespace Verif.RealPoints
open Verif.Spec

theorem hv_smul {up up0 : ℕ → ℤ} {c : ℝ} (h : ∀ i, (up i : ℝ) = c * up0 i) (deg : ℕ) (x : ℝ) : ∀ i, hv up deg x i = c * hv up0 deg x i
  | 0 => h deg
  | i + 1 => by rw [hv, hv, hv_smul h deg x i, h]; ring

theorem errC_smul {up up0 : ℕ → ℤ} {c : ℝ} (h : ∀ i, (up i : ℝ) = c * up0 i) (deg : ℕ) (x : ℝ) : ∀ i, errC up deg x i = |c| * errC up0 deg x i
  | 0 => by simp [errC]
  | i + 1 => by rw [errC, errC, errC_smul h deg x i, hv_smul h, abs_mul]; ring

theorem noStraddle_uniform (up0 : ℕ → ℤ) (deg : ℕ) (x : ℝ) (n : ℕ) : ∃ P : ℕ, ∀ (up : ℕ → ℤ) (c : ℝ), c ≠ 0 → (∀ i, (up i : ℝ) = c * up0 i) → ∀ k ≥ P, ∀ r : ℤ,
    (r : ℝ) ≤ 2 ^ k * x → 2 ^ k * x ≤ r + 1 → ∀ j < n, ¬ Straddles (iv up deg k r (r + 1) j) ∨ hv up deg x j = 0 := by
  induction n with
  | zero => exact ⟨0, fun _ _ _ _ _ _ _ _ _ j hj => absurd hj (by omega)⟩
  | succ n ih =>
    obtain ⟨P, hP⟩ := ih
    by_cases h0 : hv up0 deg x n = 0
    · refine ⟨P, fun up c hc h k hk r h1 h2 j hj => ?_⟩
      rcases Nat.lt_succ_iff_lt_or_eq.mp hj with hj | rfl
      · exact hP up c hc h k hk r h1 h2 j hj
      · exact Or.inr (by rw [hv_smul h, h0, mul_zero])
    · have habs : 0 < |hv up0 deg x n| := abs_pos.mpr h0
      obtain ⟨P', hP'⟩ := pow_unbounded_of_one_lt (2 * errC up0 deg x n / |hv up0 deg x n|) (by norm_num : (1 : ℝ) < 2)
      refine ⟨max P P', fun up c hc h k hk r h1 h2 j hj => ?_⟩
      rcases Nat.lt_succ_iff_lt_or_eq.mp hj with hj | rfl
      · exact hP up c hc h k (le_trans (le_max_left _ _) hk) r h1 h2 j hj
      · left
        rintro ⟨s1, s2⟩
        obtain ⟨e1, e2⟩ := iv_err up deg k h1 h2 j
        have hpow : (2 : ℝ) ^ P' ≤ 2 ^ k := pow_le_pow_right₀ (by norm_num) (le_trans (le_max_right _ _) hk)
        have hsm : errC up deg x j / 2 ^ k ≤ |hv up deg x j| / 2 := by
          rw [div_lt_iff₀ habs] at hP'
          rw [errC_smul h, hv_smul h, abs_mul, div_le_div_iff₀ (by positivity) (by norm_num)]
          have hc' : 0 < |c| := abs_pos.mpr hc
          have h3 : errC up0 deg x j * 2 ≤ |hv up0 deg x j| * 2 ^ k := by nlinarith
          nlinarith
        have hb : 2 ^ (k * j) * errC up deg x j / 2 ^ k ≤ 2 ^ (k * j) * (|hv up deg x j| / 2) := by
          rw [mul_div_assoc]
          exact mul_le_mul_of_nonneg_left hsm (by positivity)
        have e1' := abs_le.mp (e1.trans hb)
        have e2' := abs_le.mp (e2.trans hb)
        have hp : (0 : ℝ) < 2 ^ (k * j) := by positivity
        have s1' : ((iv up deg k r (r + 1) j).1 : ℝ) < 0 := by exact_mod_cast s1
        have s2' : (0 : ℝ) < ((iv up deg k r (r + 1) j).2 : ℝ) := by exact_mod_cast s2
        have hne : hv up deg x j ≠ 0 := by rw [hv_smul h]; exact mul_ne_zero hc h0
        rcases lt_or_gt_of_ne hne with h | h
        · rw [abs_of_neg h] at e2'
          nlinarith [mul_pos hp (neg_pos.mpr h)]
        · rw [abs_of_pos h] at e1'
          nlinarith [mul_pos hp h]

end Verif.RealPoints
