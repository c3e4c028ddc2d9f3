import Verif.RealPoints

/-!
Interval evaluation, tables of powers, scalar product and division: enclosures.
-/
namespace Verif.RealPoints
open Verif.UPoly Verif.UEval Verif.UIsolate Verif.Isolate Verif.URefine Verif.Spec
open Polynomial

/-! ### Horner's rule -/

/-- The value after `i` turns of Horner's rule at a real number. -/
noncomputable def hv (up : ℕ → ℤ) (deg : ℕ) (x : ℝ) : ℕ → ℝ
  | 0 => up deg
  | i + 1 => hv up deg x i * x + up (deg - 1 - i)

theorem hv_eq (up : ℕ → ℤ) (deg : ℕ) (x : ℝ) : ∀ i ≤ deg,
    hv up deg x i = ∑ j ∈ Finset.range (i + 1), (up (deg - i + j) : ℝ) * x ^ j := by
  intro i
  induction i with
  | zero => intro _; simp [hv]
  | succ i ih =>
    intro hi
    rw [hv, ih (by omega), Finset.sum_range_succ' _ (i + 1), Finset.sum_mul]
    congr 1
    · refine Finset.sum_congr rfl fun j _ => ?_
      rw [show deg - (i + 1) + (j + 1) = deg - i + j by omega, pow_succ, mul_assoc]
    · rw [pow_zero, mul_one, add_zero, show deg - (i + 1) = deg - 1 - i by omega]

theorem hv_deg (up : ℕ → ℤ) (deg : ℕ) (x : ℝ) : hv up deg x deg = aeval x (toPoly up deg) := by
  rw [hv_eq up deg x deg le_rfl, aeval_toPoly]
  refine Finset.sum_congr rfl fun j _ => ?_
  rw [show deg - deg + j = j by omega]

/-- The ends of the argument of an interval evaluation. -/
structure Ends (a b : ℤ) : Prop where
  le : a ≤ b
  sgn : 0 ≤ a ∨ b ≤ 0

theorem ends_succ (r : ℤ) : Ends r (r + 1) := ⟨by omega, by omega⟩

theorem ivStep_le {a b : ℤ} (h : Ends a b) (t : ℤ) {s : ℤ × ℤ} (hs : s.1 ≤ s.2) :
    (ivStep a b t s).1 ≤ (ivStep a b t s).2 := by
  obtain ⟨hab, hsg⟩ := h
  unfold ivStep
  split
  · rename_i ha
    split
    · rename_i h1
      simp only
      have := mul_le_mul hs hab ha (le_trans h1 hs)
      linarith
    · rename_i h1
      simp only
      by_cases h2 : 0 ≤ s.2
      · nlinarith [mul_nonneg h2 ha, mul_nonneg (by omega : 0 ≤ -s.1) (by omega : 0 ≤ b)]
      · nlinarith [mul_nonneg (by omega : 0 ≤ -s.1) (by omega : 0 ≤ b - a), mul_nonneg (by omega : 0 ≤ s.2 - s.1) ha]
  · rename_i ha
    have hb : b ≤ 0 := by omega
    split
    · rename_i h1
      simp only
      nlinarith [mul_nonneg h1 (by omega : 0 ≤ b - a), mul_nonneg (by omega : 0 ≤ s.2 - s.1) (by omega : 0 ≤ -a)]
    · rename_i h1
      simp only
      by_cases h2 : 0 ≤ s.2
      · nlinarith [mul_nonneg h2 (by omega : 0 ≤ -b), mul_nonneg (by omega : 0 ≤ -s.1) (by omega : 0 ≤ -a)]
      · nlinarith [mul_nonneg (by omega : 0 ≤ -s.1) (by omega : 0 ≤ b - a), mul_nonneg (by omega : 0 ≤ s.2 - s.1) (by omega : 0 ≤ -b)]

theorem iv_le {a b : ℤ} (h : Ends a b) (up : ℕ → ℤ) (deg k : ℕ) : ∀ i, (iv up deg k a b i).1 ≤ (iv up deg k a b i).2
  | 0 => le_rfl
  | i + 1 => by rw [iv]; exact ivStep_le h _ (iv_le h up deg k i)

/-- No turn makes the evaluation exit. -/
theorem evalInterval_some {a b : ℤ} (h : Ends a b) (up : ℕ → ℤ) (deg k : ℕ) :
    evalInterval up (deg + 1) k a b = some (iv up deg k a b deg) := by
  obtain _ | deg := deg
  · rfl
  · unfold evalInterval
    simp only
    rw [if_neg, if_neg]
    · rintro ⟨i, _, hi⟩
      have := iv_le h up (deg + 1) k (i + 1)
      omega
    · rintro ⟨h1, h2, h3⟩
      obtain ⟨hab, hs | hs⟩ := h
      · exact h1 ((Int.sign_eq_one_of_pos (by omega)).trans (Int.sign_eq_one_of_pos (by omega)).symm)
      · exact h1 ((Int.sign_eq_neg_one_of_neg (by omega)).trans (Int.sign_eq_neg_one_of_neg (by omega)).symm)

/-- One turn is the natural extension if the interval does not straddle zero. -/
theorem ivStep_eq {a b : ℤ} (h : Ends a b) (t : ℤ) {s : ℤ × ℤ} (hs : s.1 ≤ s.2) (hn : ¬ Straddles s) :
    ivStep a b t s = ((mulIv a b s).1 + t, (mulIv a b s).2 + t) := by
  obtain ⟨hab, hsg⟩ := h
  obtain ⟨l, u⟩ := s
  simp only [Straddles] at hn hs ⊢
  have hP : ∀ x y : ℤ, 0 ≤ x → 0 ≤ y → 0 ≤ x * y := fun x y => mul_nonneg
  unfold ivStep mulIv
  simp only
  by_cases ha : 0 ≤ a
  · rw [if_pos ha]
    by_cases hl : 0 ≤ l
    · rw [if_pos hl]
      have h1 : l * a ≤ l * b := by nlinarith
      have h2 : u * a ≤ u * b := by nlinarith
      have h3 : l * a ≤ u * a := by nlinarith
      have h4 : l * b ≤ u * b := by nlinarith
      rw [min_eq_left h1, min_eq_left h2, min_eq_left h3, max_eq_right h1, max_eq_right h2, max_eq_right h4]
    · rw [if_neg hl]
      have hu : u ≤ 0 := by omega
      have h1 : l * b ≤ l * a := by nlinarith
      have h2 : u * b ≤ u * a := by nlinarith
      have h3 : l * a ≤ u * a := by nlinarith
      have h4 : l * b ≤ u * b := by nlinarith
      rw [min_eq_right h1, min_eq_right h2, min_eq_left h4, max_eq_left h1, max_eq_left h2, max_eq_right h3]
  · rw [if_neg ha]
    have hb : b ≤ 0 := by omega
    by_cases hl : 0 ≤ l
    · rw [if_pos hl]
      have h1 : l * a ≤ l * b := by nlinarith
      have h2 : u * a ≤ u * b := by nlinarith
      have h3 : u * a ≤ l * a := by nlinarith
      have h4 : u * b ≤ l * b := by nlinarith
      rw [min_eq_left h1, min_eq_left h2, min_eq_right h3, max_eq_right h1, max_eq_right h2, max_eq_left h4]
    · rw [if_neg hl]
      have hu : u ≤ 0 := by omega
      have h1 : l * b ≤ l * a := by nlinarith
      have h2 : u * b ≤ u * a := by nlinarith
      have h3 : u * a ≤ l * a := by nlinarith
      have h4 : u * b ≤ l * b := by nlinarith
      rw [min_eq_right h1, min_eq_right h2, min_eq_right h4, max_eq_left h1, max_eq_left h2, max_eq_left h3]

/-- The code computes the natural extension as long as no interval straddles zero. -/
theorem iv_eq_hornerIv {a b : ℤ} (h : Ends a b) (up : ℕ → ℤ) (deg k : ℕ) : ∀ i,
    (∀ j < i, ¬ Straddles (hornerIv up deg k a b j)) → iv up deg k a b i = hornerIv up deg k a b i
  | 0, _ => rfl
  | i + 1, hn => by
    have ih := iv_eq_hornerIv h up deg k i fun j hj => hn j (by omega)
    rw [iv, hornerIv, ivStep_eq h _ (iv_le h up deg k i) (by rw [ih]; exact hn i (by omega)), ih]

/-- One turn, at one point: the value is enclosed unless the interval straddles zero without the value being zero. -/
theorem ivStep_encl {a b : ℤ} (h : Ends a b) (t : ℤ) {s : ℤ × ℤ} {y X : ℝ} (hX1 : (a : ℝ) ≤ X) (hX2 : X ≤ b)
    (h1 : (s.1 : ℝ) ≤ y) (h2 : y ≤ s.2) (hn : ¬ Straddles s ∨ y = 0) :
    ((ivStep a b t s).1 : ℝ) ≤ y * X + t ∧ y * X + t ≤ (ivStep a b t s).2 := by
  obtain ⟨hab, hsg⟩ := h
  obtain ⟨l, u⟩ := s
  simp only [Straddles] at hn h1 h2 ⊢
  unfold ivStep
  simp only
  by_cases ha : 0 ≤ a
  · have ha' : (0 : ℝ) ≤ a := by exact_mod_cast ha
    rw [if_pos ha]
    by_cases hl : 0 ≤ l
    · have hl' : (0 : ℝ) ≤ l := by exact_mod_cast hl
      rw [if_pos hl]
      push_cast
      constructor <;> nlinarith
    · have hl' : (l : ℝ) < 0 := by exact_mod_cast (not_le.mp hl)
      rw [if_neg hl]
      push_cast
      rcases hn with hn | rfl
      · have hu : (u : ℝ) ≤ 0 := by exact_mod_cast (by omega : u ≤ 0)
        constructor <;> nlinarith
      · constructor <;> nlinarith
  · have hb' : (b : ℝ) ≤ 0 := by exact_mod_cast (by omega : b ≤ 0)
    have ha' : (a : ℝ) ≤ 0 := by exact_mod_cast (by omega : a ≤ 0)
    rw [if_neg ha]
    by_cases hl : 0 ≤ l
    · have hl' : (0 : ℝ) ≤ l := by exact_mod_cast hl
      rw [if_pos hl]
      push_cast
      constructor <;> nlinarith
    · have hl' : (l : ℝ) < 0 := by exact_mod_cast (not_le.mp hl)
      rw [if_neg hl]
      push_cast
      rcases hn with hn | rfl
      · have hu : (u : ℝ) ≤ 0 := by exact_mod_cast (by omega : u ≤ 0)
        constructor <;> nlinarith
      · constructor <;> nlinarith

theorem hv_scaled (up : ℕ → ℤ) (deg k i : ℕ) (x : ℝ) :
    2 ^ (k * (i + 1)) * hv up deg x (i + 1) =
      (2 ^ (k * i) * hv up deg x i) * (2 ^ k * x) + ((up (deg - 1 - i) * 2 ^ (k * (i + 1)) : ℤ) : ℝ) := by
  rw [hv, mul_add, show k * (i + 1) = k * i + k by ring, pow_add]
  push_cast
  ring

theorem iv_encl {a b : ℤ} (h : Ends a b) (up : ℕ → ℤ) (deg k : ℕ) {x : ℝ} (hx1 : (a : ℝ) ≤ 2 ^ k * x)
    (hx2 : 2 ^ k * x ≤ b) : ∀ i, (∀ j < i, ¬ Straddles (iv up deg k a b j) ∨ hv up deg x j = 0) →
    ((iv up deg k a b i).1 : ℝ) ≤ 2 ^ (k * i) * hv up deg x i ∧ 2 ^ (k * i) * hv up deg x i ≤ (iv up deg k a b i).2
  | 0, _ => by simp [iv, hv]
  | i + 1, hn => by
    obtain ⟨h1, h2⟩ := iv_encl h up deg k hx1 hx2 i fun j hj => hn j (by omega)
    rw [hv_scaled, iv]
    refine ivStep_encl h _ hx1 hx2 h1 h2 ((hn i (by omega)).imp id fun h0 => ?_)
    rw [h0, mul_zero]

/-! ### Convergence -/

/-- The constant of the error after `i` turns. -/
noncomputable def errC (up : ℕ → ℤ) (deg : ℕ) (x : ℝ) : ℕ → ℝ
  | 0 => 0
  | i + 1 => (|x| + 1) * errC up deg x i + |hv up deg x i|

theorem errC_nonneg (up : ℕ → ℤ) (deg : ℕ) (x : ℝ) : ∀ i, 0 ≤ errC up deg x i
  | 0 => le_rfl
  | i + 1 => by
    have := errC_nonneg up deg x i
    rw [errC]; positivity

/-- Each end of a turn is made of an end of the interval and an end of the argument. -/
theorem ivStep_ends (a b t : ℤ) (s : ℤ × ℤ) :
    (∃ e ∈ [s.1, s.2], ∃ c ∈ [a, b], (ivStep a b t s).1 = e * c + t) ∧
      ∃ e ∈ [s.1, s.2], ∃ c ∈ [a, b], (ivStep a b t s).2 = e * c + t := by
  unfold ivStep
  split <;> split <;> simp

theorem err_step {e c : ℤ} {k i : ℕ} {x y E : ℝ} {t : ℤ} (hE : 0 ≤ E) (he : |(e : ℝ) - 2 ^ (k * i) * y| ≤ 2 ^ (k * i) * E / 2 ^ k)
    (hc : |(c : ℝ) - 2 ^ k * x| ≤ 1) :
    |((e * c + t : ℤ) : ℝ) - (2 ^ (k * i) * y * (2 ^ k * x) + t)| ≤ 2 ^ (k * (i + 1)) * ((|x| + 1) * E + |y|) / 2 ^ k := by
  have hk : (1 : ℝ) ≤ 2 ^ k := one_le_pow₀ (by norm_num)
  have hki : (0 : ℝ) < 2 ^ (k * i) := by positivity
  have hcb : |(c : ℝ)| ≤ 2 ^ k * (|x| + 1) := by
    have h1 : |(c : ℝ)| ≤ |(c : ℝ) - 2 ^ k * x| + |2 ^ k * x| := by
      have := abs_add_le ((c : ℝ) - 2 ^ k * x) (2 ^ k * x)
      rwa [sub_add_cancel] at this
    rw [abs_mul, abs_of_pos (by positivity : (0 : ℝ) < 2 ^ k)] at h1
    nlinarith
  have hsplit : ((e * c + t : ℤ) : ℝ) - (2 ^ (k * i) * y * (2 ^ k * x) + t) =
      ((e : ℝ) - 2 ^ (k * i) * y) * c + 2 ^ (k * i) * y * ((c : ℝ) - 2 ^ k * x) := by
    push_cast; ring
  rw [hsplit]
  refine (abs_add_le _ _).trans ?_
  rw [abs_mul, abs_mul, abs_mul, abs_of_pos hki]
  have h1 : |(e : ℝ) - 2 ^ (k * i) * y| * |(c : ℝ)| ≤ (2 ^ (k * i) * E / 2 ^ k) * (2 ^ k * (|x| + 1)) :=
    mul_le_mul he hcb (abs_nonneg _) (by positivity)
  have h2 : 2 ^ (k * i) * |y| * |(c : ℝ) - 2 ^ k * x| ≤ 2 ^ (k * i) * |y| * 1 :=
    mul_le_mul_of_nonneg_left hc (by positivity)
  have h3 : (2 : ℝ) ^ (k * (i + 1)) * ((|x| + 1) * E + |y|) / 2 ^ k =
      (2 ^ (k * i) * E / 2 ^ k) * (2 ^ k * (|x| + 1)) + 2 ^ (k * i) * |y| * 1 := by
    rw [show k * (i + 1) = k * i + k by ring, pow_add]
    field_simp
  rw [h3]
  exact add_le_add h1 h2

theorem iv_err {r : ℤ} (up : ℕ → ℤ) (deg k : ℕ) {x : ℝ} (hx1 : (r : ℝ) ≤ 2 ^ k * x) (hx2 : 2 ^ k * x ≤ r + 1) : ∀ i,
    |((iv up deg k r (r + 1) i).1 : ℝ) - 2 ^ (k * i) * hv up deg x i| ≤ 2 ^ (k * i) * errC up deg x i / 2 ^ k ∧
      |((iv up deg k r (r + 1) i).2 : ℝ) - 2 ^ (k * i) * hv up deg x i| ≤ 2 ^ (k * i) * errC up deg x i / 2 ^ k
  | 0 => by simp [iv, hv, errC]
  | i + 1 => by
    obtain ⟨h1, h2⟩ := iv_err up deg k hx1 hx2 i
    have hc : ∀ c ∈ [r, r + 1], |(c : ℝ) - 2 ^ k * x| ≤ 1 := by
      intro c hc
      rw [abs_le]
      simp only [List.mem_cons, List.not_mem_nil, or_false] at hc
      rcases hc with rfl | rfl
      · constructor <;> linarith
      · push_cast; constructor <;> linarith
    have he : ∀ e ∈ [(iv up deg k r (r + 1) i).1, (iv up deg k r (r + 1) i).2],
        |(e : ℝ) - 2 ^ (k * i) * hv up deg x i| ≤ 2 ^ (k * i) * errC up deg x i / 2 ^ k := by
      intro e he
      simp only [List.mem_cons, List.not_mem_nil, or_false] at he
      rcases he with rfl | rfl
      · exact h1
      · exact h2
    have hE := errC_nonneg up deg x i
    obtain ⟨⟨e, hem, c, hcm, h3⟩, e', hem', c', hcm', h4⟩ :=
      ivStep_ends r (r + 1) (up (deg - 1 - i) * 2 ^ (k * (i + 1))) (iv up deg k r (r + 1) i)
    rw [hv_scaled, iv, errC, h3, h4]
    exact ⟨err_step hE (he e hem) (hc c hcm), err_step hE (he e' hem') (hc c' hcm')⟩

/-- From a precision on, the intervals do not straddle zero unless the value is zero. -/
theorem iv_eventually (up : ℕ → ℤ) (deg i : ℕ) {x : ℝ} (hne : hv up deg x i ≠ 0) : ∃ P : ℕ, ∀ k ≥ P, ∀ r : ℤ,
    (r : ℝ) ≤ 2 ^ k * x → 2 ^ k * x ≤ r + 1 →
      0 < hv up deg x i ∧ 2 ^ (k * i) * (hv up deg x i / 2) ≤ (iv up deg k r (r + 1) i).1 ∧
          2 ^ (k * i) * (hv up deg x i / 2) ≤ (iv up deg k r (r + 1) i).2 ∨
        hv up deg x i < 0 ∧ ((iv up deg k r (r + 1) i).1 : ℝ) ≤ 2 ^ (k * i) * (hv up deg x i / 2) ∧
          ((iv up deg k r (r + 1) i).2 : ℝ) ≤ 2 ^ (k * i) * (hv up deg x i / 2) := by
  have habs : 0 < |hv up deg x i| := abs_pos.mpr hne
  obtain ⟨P, hP⟩ := pow_unbounded_of_one_lt (2 * errC up deg x i / |hv up deg x i|) (by norm_num : (1 : ℝ) < 2)
  refine ⟨P, fun k hk r h1 h2 => ?_⟩
  obtain ⟨e1, e2⟩ := iv_err up deg k h1 h2 i
  have hpow : (2 : ℝ) ^ P ≤ 2 ^ k := pow_le_pow_right₀ (by norm_num) hk
  have hsm : errC up deg x i / 2 ^ k ≤ |hv up deg x i| / 2 := by
    rw [div_lt_iff₀ habs] at hP
    rw [div_le_div_iff₀ (by positivity) (by norm_num)]
    nlinarith
  have hb : 2 ^ (k * i) * errC up deg x i / 2 ^ k ≤ 2 ^ (k * i) * (|hv up deg x i| / 2) := by
    rw [mul_div_assoc]
    exact mul_le_mul_of_nonneg_left hsm (by positivity)
  have e1' := abs_le.mp (e1.trans hb)
  have e2' := abs_le.mp (e2.trans hb)
  rcases lt_or_gt_of_ne hne with h | h
  · right
    rw [abs_of_neg h] at e1' e2'
    refine ⟨h, ?_, ?_⟩ <;> nlinarith
  · left
    rw [abs_of_pos h] at e1' e2'
    refine ⟨h, ?_, ?_⟩ <;> nlinarith

theorem noStraddle_eventually (up : ℕ → ℤ) (deg : ℕ) (x : ℝ) (n : ℕ) : ∃ P : ℕ, ∀ k ≥ P, ∀ r : ℤ,
    (r : ℝ) ≤ 2 ^ k * x → 2 ^ k * x ≤ r + 1 →
      ∀ j < n, ¬ Straddles (iv up deg k r (r + 1) j) ∨ hv up deg x j = 0 := by
  induction n with
  | zero => exact ⟨0, fun _ _ _ _ _ j hj => absurd hj (by omega)⟩
  | succ n ih =>
    obtain ⟨P, hP⟩ := ih
    by_cases h0 : hv up deg x n = 0
    · refine ⟨P, fun k hk r h1 h2 j hj => ?_⟩
      rcases Nat.lt_succ_iff_lt_or_eq.mp hj with hj | rfl
      · exact hP k hk r h1 h2 j hj
      · exact Or.inr h0
    · obtain ⟨P', hP'⟩ := iv_eventually up deg n h0
      refine ⟨max P P', fun k hk r h1 h2 j hj => ?_⟩
      rcases Nat.lt_succ_iff_lt_or_eq.mp hj with hj | rfl
      · exact hP k (le_trans (le_max_left _ _) hk) r h1 h2 j hj
      · left
        rintro ⟨s1, s2⟩
        have hp : (0 : ℝ) < 2 ^ (k * j) := by positivity
        have s1' : ((iv up deg k r (r + 1) j).1 : ℝ) < 0 := by exact_mod_cast s1
        have s2' : (0 : ℝ) < ((iv up deg k r (r + 1) j).2 : ℝ) := by exact_mod_cast s2
        rcases hP' k (le_trans (le_max_right _ _) hk) r h1 h2 with ⟨h, h3, _⟩ | ⟨h, _, h4⟩
        · nlinarith [mul_pos hp h]
        · nlinarith [mul_pos hp (neg_pos.mpr h)]

/-! ### Rounding -/

theorem fdiv_le_real (a : ℤ) {b : ℤ} (hb : b ≠ 0) : ((a.fdiv b : ℤ) : ℝ) = ⌊(a : ℝ) / b⌋ := by
  rcases lt_or_gt_of_ne hb with h | h
  · rw [← Int.neg_fdiv_neg a b, Int.fdiv_eq_ediv_of_nonneg _ (by omega)]
    have := Int.floor_div_cast_of_nonneg (k := ℝ) (by omega : (0 : ℤ) ≤ -b) (((-a : ℤ)) : ℝ)
    have e : (a : ℝ) / b = ((-a : ℤ) : ℝ) / ((-b : ℤ) : ℝ) := by push_cast; rw [neg_div_neg_eq]
    rw [e, this, Int.floor_intCast]
  · rw [Int.fdiv_eq_ediv_of_nonneg _ h.le]
    have := Int.floor_div_cast_of_nonneg (k := ℝ) h.le (a : ℝ)
    rw [this, Int.floor_intCast]

theorem fdiv_eq_floor (a : ℤ) {b : ℤ} (hb : b ≠ 0) : a.fdiv b = ⌊(a : ℝ) / b⌋ := by
  have := fdiv_le_real a hb
  exact_mod_cast this

theorem cdivq_eq_ceil (a : ℤ) {b : ℤ} (hb : b ≠ 0) : cdivq a b = ⌈(a : ℝ) / b⌉ := by
  unfold cdivq
  rw [fdiv_eq_floor _ hb, ← Int.ceil_neg]
  congr 1
  push_cast
  ring

end Verif.RealPoints
