import Verif.UUspensky
import Mathlib.Algebra.Polynomial.Taylor
import Mathlib.Algebra.Polynomial.Derivative
import Mathlib.Topology.Order.Compact
import Mathlib.Topology.MetricSpace.Pseudo.Basic
import Mathlib.Analysis.Normed.Group.Bounded
import Mathlib.RingTheory.UniqueFactorizationDomain.NormalizedFactors
import Mathlib.RingTheory.PrincipalIdealDomain
import Mathlib.Data.Multiset.Powerset

/-!
The bisection ends: short intervals have at most one sign variation; if all real roots are simple, neither the
error exit nor a polynomial of degree 0 is reached.
-/
namespace Verif.UIsolate
open Verif.UPoly Verif.UEval Verif.UScale Verif.UTaylor Verif.USign Verif.UDescartes Verif.UBound Verif.Isolate
open Polynomial

/-! ### at most one variation -/

theorem svCount_zero (l : List ℤ) : ∀ s : ℤ, (s = 1 ∨ s = -1) → (∀ a ∈ l, a.sign ≠ -s) → svCount s l = 0 := by
  induction l with
  | nil => intros; rfl
  | cons a l ih =>
    intro s hs h
    simp only [svCount]
    rw [if_neg (by rw [sign_mul_neg_iff hs]; exact h a List.mem_cons_self)]
    exact ih s hs fun b hb => h b (List.mem_cons_of_mem _ hb)

theorem svCount_le_one (l : List ℤ) : ∀ s : ℤ, (s = 1 ∨ s = -1) →
    l.Pairwise (fun a b => a.sign = -s → b.sign ≠ s) → svCount s l ≤ 1 := by
  induction l with
  | nil => intros; simp [svCount]
  | cons a l ih =>
    intro s hs h
    rw [List.pairwise_cons] at h
    simp only [svCount]
    split
    · rename_i hc
      have hc := (sign_mul_neg_iff hs).mp hc
      rw [hc, svCount_zero l (-s) (by rcases hs with rfl | rfl <;> simp) fun b hb => by
        rw [neg_neg]; exact h.1 b hb hc]
    · exact ih s hs h.2

/-- The coefficients of the transformed polynomial. -/
def desCoeff (f : ℕ → ℤ) (d i : ℕ) : ℤ := ∑ j ∈ Finset.range (d + 1), f j * ((d - j).choose i : ℤ)

theorem toPoly_desCoeff (f : ℕ → ℤ) (d : ℕ) :
    toPoly (desCoeff f d) d = (toPoly (reversed f d) d).comp (X + 1) := by
  have hc : ∀ i, ((toPoly (reversed f d) d).comp (X + 1)).coeff i = desCoeff f d i := by
    intro i
    rw [coeff_shift, desCoeff, ← Finset.sum_range_reflect]
    refine Finset.sum_congr rfl fun j hj => ?_
    have := Finset.mem_range.mp hj
    unfold reversed
    rw [show d + 1 - 1 - j = d - j by omega, show d - (d - j) = j by omega]
  ext i
  rw [coeff_toPoly, hc]
  split
  · rfl
  · rename_i hi
    unfold desCoeff
    symm
    refine Finset.sum_eq_zero fun j _ => ?_
    rw [Nat.choose_eq_zero_of_lt (by omega)]; simp

theorem varShift_desCoeff {f : ℕ → ℤ} {d : ℕ} (h0 : f 0 ≠ 0) :
    varShift (reversed f d) d = svCount (f 0).sign (desc (desCoeff f d) d) := by
  have hf : reversed f d d = f 0 := by unfold reversed; rw [Nat.sub_self]
  have := (varShift_eq (a := reversed f d) (g := desCoeff f d) (deg := d) (by rw [hf]; exact h0)
    (toPoly_desCoeff f d)).2
  rw [this, hf]

theorem desCoeff_top (f : ℕ → ℤ) (d : ℕ) : desCoeff f d d = f 0 := by
  unfold desCoeff
  rw [Finset.sum_eq_single 0]
  · simp
  · intro j hj hj0
    have := Finset.mem_range.mp hj
    rw [Nat.choose_eq_zero_of_lt (by omega)]; simp
  · simp

/-- `C(d - j, i) / C(d, i)`. -/
noncomputable def rho (d j i : ℕ) : ℝ := ((d - j).choose i : ℝ) / (d.choose i : ℝ)

theorem rho_mem {d j i : ℕ} (hi : i ≤ d) : 0 ≤ rho d j i ∧ rho d j i ≤ 1 := by
  have h : (0 : ℝ) < (d.choose i : ℝ) := by exact_mod_cast Nat.choose_pos hi
  unfold rho
  refine ⟨by positivity, ?_⟩
  rw [div_le_one h]
  exact_mod_cast Nat.choose_le_choose i (Nat.sub_le d j)

theorem rho_zero {d i : ℕ} (hi : i ≤ d) : rho d 0 i = 1 := by
  have h : (0 : ℝ) < (d.choose i : ℝ) := by exact_mod_cast Nat.choose_pos hi
  unfold rho
  rw [Nat.sub_zero, div_self h.ne']

theorem rho_one {d i : ℕ} (hd : 1 ≤ d) (hi : i ≤ d) : rho d 1 i = ((d : ℝ) - i) / d := by
  have h : (0 : ℝ) < (d.choose i : ℝ) := by exact_mod_cast Nat.choose_pos hi
  have hd' : (0 : ℝ) < d := by exact_mod_cast hd
  unfold rho
  rw [div_eq_div_iff h.ne' hd'.ne']
  obtain ⟨n, rfl⟩ : ∃ n, d = n + 1 := ⟨d - 1, by omega⟩
  have := Nat.choose_mul_succ_eq n i
  have h2 : (((n + 1 - i : ℕ) : ℕ) : ℝ) = ((n + 1 : ℕ) : ℝ) - i := by rw [Nat.cast_sub hi]
  rw [Nat.add_sub_cancel, ← h2]
  have h3 : ((n.choose i * (n + 1) : ℕ) : ℝ) = (((n + 1).choose i * (n + 1 - i) : ℕ) : ℝ) := by exact_mod_cast this
  push_cast at h3 ⊢
  rw [h3]; ring

/-- The scaled coefficients (coefficients in the Bernstein basis). -/
noncomputable def bern (f : ℕ → ℤ) (d i : ℕ) : ℝ := ∑ j ∈ Finset.range (d + 1), (f j : ℝ) * rho d j i

theorem bern_eq (f : ℕ → ℤ) (d i : ℕ) (hi : i ≤ d) : (desCoeff f d i : ℝ) = (d.choose i : ℝ) * bern f d i := by
  have h : (0 : ℝ) < (d.choose i : ℝ) := by exact_mod_cast Nat.choose_pos hi
  unfold desCoeff bern rho
  push_cast
  rw [Finset.mul_sum]
  refine Finset.sum_congr rfl fun j _ => ?_
  field_simp

theorem bern_pos_iff (f : ℕ → ℤ) (d i : ℕ) (hi : i ≤ d) : (desCoeff f d i).sign = 1 ↔ 0 < bern f d i := by
  have h : (0 : ℝ) < (d.choose i : ℝ) := by exact_mod_cast Nat.choose_pos hi
  rw [Int.sign_eq_one_iff_pos, ← Int.cast_pos (R := ℝ), bern_eq f d i hi]
  exact mul_pos_iff_of_pos_left h

theorem bern_neg_iff (f : ℕ → ℤ) (d i : ℕ) (hi : i ≤ d) : (desCoeff f d i).sign = -1 ↔ bern f d i < 0 := by
  have h : (0 : ℝ) < (d.choose i : ℝ) := by exact_mod_cast Nat.choose_pos hi
  rw [Int.sign_eq_neg_one_iff_neg, ← Int.cast_lt_zero (R := ℝ), bern_eq f d i hi]
  constructor
  · intro h1; by_contra h2; push Not at h2; have := mul_nonneg h.le h2; linarith
  · intro h1; exact mul_neg_of_pos_of_neg h h1

theorem mem_desc {g : ℕ → ℤ} {n : ℕ} {a : ℤ} (h : a ∈ desc g n) : ∃ i < n, a = g i := by
  unfold desc at h
  obtain ⟨i, hi, rfl⟩ := List.mem_map.mp h
  exact ⟨i, List.mem_range.mp (List.mem_reverse.mp hi), rfl⟩

theorem var_zero {f : ℕ → ℤ} {d : ℕ} (h0 : f 0 ≠ 0)
    (h : ∑ j ∈ Finset.Ico 1 (d + 1), |(f j : ℝ)| < |(f 0 : ℝ)|) : varShift (reversed f d) d = 0 := by
  rw [varShift_desCoeff h0]
  refine svCount_zero _ _ (sign_cases h0) fun a ha => ?_
  obtain ⟨i, hi, rfl⟩ := mem_desc ha
  have hb : |bern f d i - f 0| < |(f 0 : ℝ)| := by
    refine lt_of_le_of_lt ?_ h
    unfold bern
    rw [Finset.range_eq_Ico, Finset.sum_eq_sum_Ico_succ_bot (by omega), rho_zero hi.le, mul_one, add_sub_cancel_left]
    refine (Finset.abs_sum_le_sum_abs _ _).trans (Finset.sum_le_sum fun j _ => ?_)
    rw [abs_mul]
    obtain ⟨r0, r1⟩ := rho_mem (j := j) hi.le
    rw [abs_of_nonneg r0]
    exact mul_le_of_le_one_right (abs_nonneg _) r1
  rw [abs_lt] at hb
  rcases lt_or_gt_of_ne h0 with hlt | hgt
  · have hf : (f 0 : ℝ) < 0 := by exact_mod_cast hlt
    rw [Int.sign_eq_neg_one_of_neg hlt, neg_neg]
    intro h1
    have := (bern_pos_iff f d i hi.le).mp h1
    rw [abs_of_neg hf] at hb
    linarith
  · have hf : (0 : ℝ) < f 0 := by exact_mod_cast hgt
    rw [Int.sign_eq_one_of_pos hgt]
    intro h1
    have := (bern_neg_iff f d i hi.le).mp h1
    rw [abs_of_pos hf] at hb
    linarith

theorem bern_step {f : ℕ → ℤ} {d i : ℕ} (hi : i < d) :
    |bern f d i - bern f d (i + 1) - f 1 / d| ≤ ∑ j ∈ Finset.Ico 2 (d + 1), |(f j : ℝ)| := by
  have hd : (0 : ℝ) < d := by exact_mod_cast (by omega : 0 < d)
  have h1 : bern f d i - bern f d (i + 1) - f 1 / d
      = ∑ j ∈ Finset.Ico 2 (d + 1), (f j : ℝ) * (rho d j i - rho d j (i + 1)) := by
    unfold bern
    rw [← Finset.sum_sub_distrib, Finset.range_eq_Ico, Finset.sum_eq_sum_Ico_succ_bot (by omega),
      Finset.sum_eq_sum_Ico_succ_bot (by omega), rho_zero hi.le, rho_zero (by omega : i + 1 ≤ d),
      rho_one (by omega) hi.le, rho_one (by omega) (by omega : i + 1 ≤ d)]
    simp only [← mul_sub]
    push_cast
    field_simp
    ring
  rw [h1]
  refine (Finset.abs_sum_le_sum_abs _ _).trans (Finset.sum_le_sum fun j _ => ?_)
  rw [abs_mul]
  refine mul_le_of_le_one_right (abs_nonneg _) ?_
  obtain ⟨r0, r1⟩ := rho_mem (j := j) hi.le
  obtain ⟨r2, r3⟩ := rho_mem (j := j) (by omega : i + 1 ≤ d)
  rw [abs_le]
  constructor <;> linarith

theorem var_one {f : ℕ → ℤ} {d : ℕ} (h0 : f 0 ≠ 0)
    (h : d * ∑ j ∈ Finset.Ico 2 (d + 1), |(f j : ℝ)| < |(f 1 : ℝ)|) : varShift (reversed f d) d ≤ 1 := by
  rw [varShift_desCoeff h0]
  refine svCount_le_one _ _ (sign_cases h0) ?_
  have hstep : ∀ i < d, |bern f d i - bern f d (i + 1) - f 1 / d| < |(f 1 : ℝ)| / d := by
    intro i hi
    have hd : (0 : ℝ) < d := by exact_mod_cast (by omega : 0 < d)
    refine (bern_step hi).trans_lt ?_
    rw [lt_div_iff₀ hd, mul_comm]; exact h
  have htop : bern f d d = f 0 := by
    have := bern_eq f d d le_rfl
    rw [desCoeff_top, Nat.choose_self] at this
    simpa using this.symm
  -- a monotone sequence
  have hmono : (∀ i j, i < j → j ≤ d → bern f d i < bern f d j) ∨ (∀ i j, i < j → j ≤ d → bern f d j < bern f d i) := by
    have hf1 : f 1 ≠ 0 := by
      intro h1
      rw [h1] at h
      simp only [Int.cast_zero, abs_zero] at h
      exact absurd h (not_lt.mpr (by positivity))
    rcases lt_or_gt_of_ne hf1 with hlt | hgt
    · left
      have hf : (f 1 : ℝ) < 0 := by exact_mod_cast hlt
      intro i j hij
      induction j, hij using Nat.le_induction with
      | base =>
        intro hi
        have := hstep i (by omega)
        rw [abs_of_neg hf, abs_lt] at this
        have h3 : (-(f 1 : ℝ)) / d = -(f 1 / d) := by ring
        linarith [this.2]
      | succ j hj ih =>
        intro hjd
        have := hstep j (by omega)
        rw [abs_of_neg hf, abs_lt] at this
        have h3 : (-(f 1 : ℝ)) / d = -(f 1 / d) := by ring
        linarith [this.2, ih (by omega)]
    · right
      have hf : (0 : ℝ) < f 1 := by exact_mod_cast hgt
      intro i j hij
      induction j, hij using Nat.le_induction with
      | base =>
        intro hi
        have := hstep i (by omega)
        rw [abs_of_pos hf, abs_lt] at this
        linarith [this.1]
      | succ j hj ih =>
        intro hjd
        have := hstep j (by omega)
        rw [abs_of_pos hf, abs_lt] at this
        linarith [this.1, ih (by omega)]
  unfold desc
  rw [List.pairwise_map, List.pairwise_reverse]
  have hlt : (List.range d).Pairwise fun x1 x2 => x1 < x2 := List.pairwise_lt_range
  refine hlt.imp_of_mem ?_
  intro j i hj hi hji h1 h2
  have hi := List.mem_range.mp hi
  -- index `i` comes first, `j < i`
  rcases lt_or_gt_of_ne h0 with hneg | hpos
  · rw [Int.sign_eq_neg_one_of_neg hneg] at h1 h2
    have b1 := (bern_pos_iff f d i hi.le).mp (by simpa using h1)
    have b2 := (bern_neg_iff f d j (by omega)).mp h2
    have b3 : bern f d d < 0 := by rw [htop]; exact_mod_cast hneg
    rcases hmono with hm | hm
    · linarith [hm i d hi le_rfl]
    · linarith [hm j i hji hi.le]
  · rw [Int.sign_eq_one_of_pos hpos] at h1 h2
    have b1 := (bern_neg_iff f d i hi.le).mp h1
    have b2 := (bern_pos_iff f d j (by omega)).mp h2
    have b3 : 0 < bern f d d := by rw [htop]; exact_mod_cast hpos
    rcases hmono with hm | hm
    · linarith [hm j i hji hi.le]
    · linarith [hm i d hi le_rfl]

/-! ### short intervals -/

/-- All real roots are simple. -/
def Simple (D : ℝ[X]) : Prop := ∀ x, D.eval x = 0 → D.derivative.eval x ≠ 0

theorem Simple.ne_zero {D : ℝ[X]} (h : Simple D) : D ≠ 0 := by
  rintro rfl
  exact h 0 (by simp) (by simp)

theorem Simple.of_dvd {D E : ℝ[X]} (h : Simple D) (hE : E ∣ D) : Simple E := by
  obtain ⟨F, rfl⟩ := hE
  intro x h0 h1
  apply h x
  · rw [eval_mul, h0, zero_mul]
  · rw [derivative_mul, eval_add, eval_mul, eval_mul, h0, h1, zero_mul, zero_mul, add_zero]

theorem rep_coeff {s : St} {D : ℝ[X]} {α β : ℝ} (h : Rep s D α β) :
    ∃ u : ℝ, u ≠ 0 ∧ ∀ j ≤ s.deg, (s.up j : ℝ) = u * ((taylor β D).coeff j * α ^ j) := by
  obtain ⟨u, hu, h⟩ := h
  refine ⟨u, hu, fun j hj => ?_⟩
  have h1 : D.comp (C α * X + C β) = (taylor β D).comp (C α * X) := by
    rw [taylor_apply, comp_assoc]; simp
  have h2 : (rp s.up s.deg).coeff j = (s.up j : ℝ) := by
    unfold rp
    rw [coeff_map, coeff_toPoly, if_pos hj]; rfl
  rw [← h2, h, h1, coeff_C_mul, comp_C_mul_X_coeff]

theorem rep_natDegree {s : St} {D : ℝ[X]} {α β : ℝ} (hs : Valid s) (h : Rep s D α β) (hα : α ≠ 0) :
    D.natDegree = s.deg := by
  obtain ⟨u, hu, h⟩ := h
  have h1 : (rp s.up s.deg).natDegree = s.deg := by
    unfold rp
    rw [natDegree_map_eq_of_injective Int.cast_injective, natDegree_toPoly hs.lead]
  have h2 : (C α * X + C β).natDegree = 1 := natDegree_linear hα
  rw [h, natDegree_C_mul hu, natDegree_comp, h2, mul_one] at h1
  exact h1

theorem small_var {D : ℝ[X]} (hD : Simple D) : ∃ K : ℕ, ∀ k ≥ K, ∀ β ∈ Set.Icc (0 : ℝ) 1, ∀ s, Valid s →
    s.up 0 ≠ 0 → Rep s D (1 / 2 ^ k) β → varShift (reversed s.up s.deg) s.deg ≤ 1 := by
  set d := D.natDegree with hd
  set T : ℕ → ℝ → ℝ := fun j β => (hasseDeriv j D).eval β with hT
  have hTc : ∀ j, Continuous (T j) := fun j => (hasseDeriv j D).continuous
  have hT' : ∀ j β, (taylor β D).coeff j = T j β := fun j β => taylor_coeff _ _ _
  -- bounds on the interval
  have hM : ∃ M : ℝ, 0 ≤ M ∧ ∀ j ≤ d, ∀ β ∈ Set.Icc (0 : ℝ) 1, |T j β| ≤ M := by
    have : ∀ n : ℕ, ∃ M : ℝ, 0 ≤ M ∧ ∀ j < n, ∀ β ∈ Set.Icc (0 : ℝ) 1, |T j β| ≤ M := by
      intro n
      induction n with
      | zero => exact ⟨0, le_rfl, fun j hj => absurd hj (Nat.not_lt_zero j)⟩
      | succ n ih =>
        obtain ⟨M, hM0, hM⟩ := ih
        obtain ⟨M', hM'⟩ := isCompact_Icc.exists_bound_of_continuousOn (hTc n).continuousOn
        refine ⟨max M M', le_max_of_le_left hM0, fun j hj β hβ => ?_⟩
        rcases Nat.lt_succ_iff_lt_or_eq.mp hj with h | h
        · exact (hM j h β hβ).trans (le_max_left _ _)
        · rw [h]; exact (hM' β hβ).trans (le_max_right _ _)
    obtain ⟨M, h0, h⟩ := this (d + 1)
    exact ⟨M, h0, fun j hj => h j (by omega)⟩
  obtain ⟨M, hM0, hM⟩ := hM
  obtain ⟨δ, hδ0, hδ⟩ : ∃ δ : ℝ, 0 < δ ∧ ∀ β ∈ Set.Icc (0 : ℝ) 1, δ ≤ |T 0 β| + |T 1 β| := by
    have hc : Continuous fun β => |T 0 β| + |T 1 β| := ((hTc 0).abs).add ((hTc 1).abs)
    obtain ⟨x, hx, hmin⟩ := isCompact_Icc.exists_isMinOn (Set.nonempty_Icc.mpr zero_le_one) hc.continuousOn
    refine ⟨|T 0 x| + |T 1 x|, ?_, fun β hβ => hmin hβ⟩
    have e0 : T 0 x = D.eval x := by simp [hT]
    have e1 : T 1 x = D.derivative.eval x := by simp [hT, hasseDeriv_one]
    by_contra hc
    have h0 : |T 0 x| = 0 := by linarith [abs_nonneg (T 0 x), abs_nonneg (T 1 x)]
    have h1 : |T 1 x| = 0 := by linarith [abs_nonneg (T 0 x), abs_nonneg (T 1 x)]
    exact hD x (by rw [← e0]; exact abs_eq_zero.mp h0) (by rw [← e1]; exact abs_eq_zero.mp h1)
  obtain ⟨K, hK⟩ := exists_pow_lt_of_lt_one (show 0 < (δ / 2) / ((d : ℝ) ^ 2 * M + (d : ℝ) * M + 1) by positivity)
    (show (1 / 2 : ℝ) < 1 by norm_num)
  refine ⟨K, fun k hk β hβ s hs h0 hrep => ?_⟩
  set α : ℝ := 1 / 2 ^ k with hα
  have hα0 : 0 < α := by positivity
  have hα1 : α ≤ 1 := by
    rw [hα, div_le_one (by positivity)]
    exact one_le_pow₀ (by norm_num)
  have hαK : α * ((d : ℝ) ^ 2 * M + (d : ℝ) * M + 1) < δ / 2 := by
    rw [← lt_div_iff₀ (by positivity)]
    refine lt_of_le_of_lt ?_ hK
    rw [hα, one_div_pow]
    exact one_div_le_one_div_of_le (by positivity) (pow_le_pow_right₀ (by norm_num) hk)
  obtain ⟨u, hu, hco⟩ := rep_coeff hrep
  have hdeg : d = s.deg := rep_natDegree hs hrep hα0.ne'
  rw [← hdeg] at hco ⊢
  have hupos : 0 < |u| := abs_pos.mpr hu
  have habs : ∀ j ≤ d, |(s.up j : ℝ)| = |u| * (|T j β| * α ^ j) := by
    intro j hj
    rw [hco j hj, hT', abs_mul, abs_mul, abs_of_pos (pow_pos hα0 j)]
  have hd1 : 1 ≤ d := by rw [hdeg]; exact hs.deg_pos
  have hdM : 0 ≤ (d : ℝ) * M := by positivity
  have hd2M : 0 ≤ (d : ℝ) ^ 2 * M := by positivity
  have hprod : ∀ x y : ℝ, 0 ≤ x → 0 ≤ y → α * (x + y + 1) < δ / 2 → α * x < δ / 2 ∧ α * y < δ / 2 := by
    intro x y hx hy h
    have h1 := mul_nonneg hα0.le hx
    have h2 := mul_nonneg hα0.le hy
    constructor <;> nlinarith
  obtain ⟨p1, p2⟩ := hprod _ _ hd2M hdM hαK
  by_cases hcase : δ / 2 ≤ |T 0 β|
  · refine (var_zero h0 ?_).le.trans (Nat.zero_le 1)
    rw [Finset.sum_congr rfl fun j hj => habs j (by have := Finset.mem_Ico.mp hj; omega), habs 0 (Nat.zero_le d),
      ← Finset.mul_sum, pow_zero, mul_one]
    refine mul_lt_mul_of_pos_left (lt_of_lt_of_le ?_ hcase) hupos
    calc ∑ j ∈ Finset.Ico 1 (d + 1), |T j β| * α ^ j ≤ ∑ j ∈ Finset.Ico 1 (d + 1), M * α := by
          refine Finset.sum_le_sum fun j hj => ?_
          have hj := Finset.mem_Ico.mp hj
          refine mul_le_mul (hM j (by omega) β hβ) ?_ (by positivity) hM0
          exact (pow_le_of_le_one hα0.le hα1 (by omega))
      _ = α * ((d : ℝ) * M) := by
          rw [Finset.sum_const, Nat.card_Ico, nsmul_eq_mul, Nat.add_sub_cancel]; ring
      _ < δ / 2 := p2
  · have hcase' : δ / 2 < |T 1 β| := by have := hδ β hβ; push Not at hcase; linarith
    refine var_one h0 ?_
    rw [Finset.sum_congr rfl fun j hj => habs j (by have := Finset.mem_Ico.mp hj; omega), habs 1 hd1,
      ← Finset.mul_sum, pow_one, mul_left_comm]
    refine mul_lt_mul_of_pos_left ?_ hupos
    have hsum : ∑ j ∈ Finset.Ico 2 (d + 1), |T j β| * α ^ j ≤ (d : ℝ) * (M * (α * α)) := by
      calc ∑ j ∈ Finset.Ico 2 (d + 1), |T j β| * α ^ j ≤ ∑ j ∈ Finset.Ico 2 (d + 1), M * (α * α) := by
            refine Finset.sum_le_sum fun j hj => ?_
            have hj := Finset.mem_Ico.mp hj
            refine mul_le_mul (hM j (by omega) β hβ) ?_ (by positivity) hM0
            rw [← sq]
            exact pow_le_pow_of_le_one hα0.le hα1 hj.1
        _ ≤ (d : ℝ) * (M * (α * α)) := by
            rw [Finset.sum_const, Nat.card_Ico, nsmul_eq_mul]
            refine mul_le_mul_of_nonneg_right ?_ (by positivity)
            exact_mod_cast (by omega : d + 1 - 2 ≤ d)
    calc (d : ℝ) * ∑ j ∈ Finset.Ico 2 (d + 1), |T j β| * α ^ j ≤ d * ((d : ℝ) * (M * (α * α))) :=
          mul_le_mul_of_nonneg_left hsum (by positivity)
      _ = (α * ((d : ℝ) ^ 2 * M)) * α := by ring
      _ < |T 1 β| * α := mul_lt_mul_of_pos_right (p1.trans hcase') hα0

/-- From depth `K` on there is at most one variation, for all divisors. -/
def Short (K : ℕ) (D : ℝ[X]) : Prop := ∀ D', D' ∣ D → ∀ k ≥ K, ∀ β ∈ Set.Icc (0 : ℝ) 1, ∀ s, Valid s →
    s.up 0 ≠ 0 → Rep s D' (1 / 2 ^ k) β → varShift (reversed s.up s.deg) s.deg ≤ 1

theorem Short.of_dvd {K : ℕ} {D E : ℝ[X]} (h : Short K D) (hE : E ∣ D) : Short K E :=
  fun D' hD' => h D' (hD'.trans hE)

theorem exists_short {D : ℝ[X]} (hD : Simple D) : ∃ K, Short K D := by
  classical
  have hne := hD.ne_zero
  set F := UniqueFactorizationMonoid.normalizedFactors D with hF
  -- for every product of factors
  have h1 : ∀ m ∈ F.powerset, ∃ K : ℕ, ∀ k ≥ K, ∀ β ∈ Set.Icc (0 : ℝ) 1, ∀ s, Valid s →
      s.up 0 ≠ 0 → Rep s m.prod (1 / 2 ^ k) β → varShift (reversed s.up s.deg) s.deg ≤ 1 := by
    intro m hm
    refine small_var (hD.of_dvd ?_)
    exact (Multiset.prod_dvd_prod_of_le (Multiset.mem_powerset.mp hm)).trans
      (UniqueFactorizationMonoid.prod_normalizedFactors hne).dvd
  have h2 : ∃ K : ℕ, ∀ m ∈ F.powerset, ∀ k ≥ K, ∀ β ∈ Set.Icc (0 : ℝ) 1, ∀ s, Valid s →
      s.up 0 ≠ 0 → Rep s m.prod (1 / 2 ^ k) β → varShift (reversed s.up s.deg) s.deg ≤ 1 := by
    revert h1
    generalize F.powerset = L
    intro h1
    induction L using Multiset.induction with
    | empty => exact ⟨0, fun m hm => absurd hm (Multiset.notMem_zero m)⟩
    | cons a L ih =>
      obtain ⟨K1, hK1⟩ := h1 a (Multiset.mem_cons_self a L)
      obtain ⟨K2, hK2⟩ := ih fun m hm => h1 m (Multiset.mem_cons_of_mem hm)
      refine ⟨max K1 K2, fun m hm k hk => ?_⟩
      rcases Multiset.mem_cons.mp hm with rfl | hm
      · exact hK1 k (le_trans (le_max_left _ _) hk)
      · exact hK2 m hm k (le_trans (le_max_right _ _) hk)
  obtain ⟨K, hK⟩ := h2
  refine ⟨K, fun D' hD' k hk β hβ s hs h0 hrep => ?_⟩
  have hne' : D' ≠ 0 := ne_zero_of_dvd_ne_zero hne hD'
  have hle := (UniqueFactorizationMonoid.dvd_iff_normalizedFactors_le_normalizedFactors hne' hne).mp hD'
  refine hK _ (Multiset.mem_powerset.mpr hle) k hk β hβ s hs h0 ?_
  obtain ⟨w, hw⟩ := UniqueFactorizationMonoid.prod_normalizedFactors hne'
  obtain ⟨r, hr, hrw⟩ := Polynomial.isUnit_iff.mp w.isUnit
  obtain ⟨u, hu, hue⟩ := hrep.eval
  refine Rep.of_eval (u := u * r) (mul_ne_zero hu hr.ne_zero) fun x => ?_
  have he : ∀ y, D'.eval y = (UniqueFactorizationMonoid.normalizedFactors D').prod.eval y * r := by
    intro y
    conv_lhs => rw [← hw, ← hrw, eval_mul, eval_C]
  rw [hue, he]; ring

/-! ### polynomials with real roots only -/

/-- The polynomial has as many real roots as its degree tells. -/
def Full (D : ℝ[X]) : Prop := D.natDegree ≤ D.roots.toFinset.card

theorem svCount_add_alt (f : ℕ → ℤ) (n : ℕ) : ∀ (m : ℕ) (s : ℤ), n ≤ m → (s = 1 ∨ s = -1) →
    svCount s (desc f n) + svCount (s * (-1) ^ m) (desc (fun i => f i * (-1) ^ i) n) ≤ m := by
  induction n with
  | zero => intro m s _ _; simp [desc, svCount]
  | succ n ih =>
    intro m s hm hs
    rw [desc_succ, desc_succ]
    have hpm : ∀ i : ℕ, ((-1 : ℤ) ^ i = 1 ∨ (-1 : ℤ) ^ i = -1) := neg_one_pow_eq_or ℤ
    have hs2 : s * (-1) ^ m = 1 ∨ s * (-1) ^ m = -1 := by
      rcases hs with rfl | rfl <;> rcases hpm m with h | h <;> rw [h] <;> decide
    simp only [svCount]
    by_cases h0 : f n = 0
    · simp only [h0, Int.sign_zero, zero_mul, lt_irrefl, if_false]
      exact ih m s (by omega) hs
    · have hsg : (f n * (-1) ^ n).sign = (f n).sign * (-1) ^ n := by
        rw [Int.sign_mul]
        rcases hpm n with h | h <;> rw [h] <;> rfl
      have ih1 := ih n (f n).sign le_rfl (sign_cases h0)
      rw [← hsg] at ih1
      simp only [sign_mul_neg_iff hs, sign_mul_neg_iff hs2]
      simp only [hsg] at ih1 ⊢
      have heq1 : (f n).sign ≠ -s → (f n).sign = s := by
        rcases hs with rfl | rfl <;> rcases sign_cases h0 with h | h <;> rw [h] <;> decide
      have heq2 : (f n).sign * (-1) ^ n ≠ -(s * (-1) ^ m) → (f n).sign * (-1) ^ n = s * (-1) ^ m := by
        rcases hs with rfl | rfl <;> rcases sign_cases h0 with h | h <;> rw [h] <;>
          rcases hpm n with h | h <;> rw [h] <;> rcases hpm m with h | h <;> rw [h] <;> decide
      have hboth : (f n).sign = -s → (f n).sign * (-1) ^ n = -(s * (-1) ^ m) → n + 2 ≤ m := by
        intro g1 g2
        rw [g1] at g2
        by_contra hc
        have : m = n + 1 := by omega
        rw [this, pow_succ] at g2
        rcases hs with rfl | rfl <;> rcases hpm n with h | h <;> rw [h] at g2 <;> exact absurd g2 (by decide)
      by_cases c1 : (f n).sign = -s <;> by_cases c2 : (f n).sign * (-1) ^ n = -(s * (-1) ^ m)
      · rw [if_pos c1, if_pos c2]
        have := hboth c1 c2
        omega
      · rw [if_pos c1, if_neg c2, ← heq2 c2]
        omega
      · rw [if_neg c1, if_pos c2, ← heq1 c1]
        omega
      · rw [if_neg c1, if_neg c2, ← heq2 c2, ← heq1 c1]
        omega

/-- Descartes' bound is attained if there are only real roots. -/
theorem var_exact {f : ℕ → ℤ} {d : ℕ} (h0 : f 0 ≠ 0) (h1 : evalOne f d ≠ 0) (S : Finset ℝ)
    (hS : ∀ x ∈ S, (rp f d).eval x = 0) (hc : d ≤ S.card) :
    varShift (reversed f d) d ≤ (S.filter fun x => 0 < x ∧ x < 1).card := by
  set g := desCoeff f d with hg
  have hgd : g d = f 0 := desCoeff_top f d
  have hv : varShift (reversed f d) d = svCount (g d).sign (desc g d) := by rw [hgd]; exact varShift_desCoeff h0
  have hsum := svCount_add_alt g d d (g d).sign le_rfl (by rw [hgd]; exact sign_cases h0)
  -- the polynomial at `-X`
  have hgn : (fun i => g i * (-1) ^ i) d ≠ 0 := by
    simp only
    rw [hgd]
    exact mul_ne_zero h0 (pow_ne_zero _ (by decide))
  have hv2 := signVariations_toPoly (f := fun i => g i * (-1) ^ i) (deg := d) hgn
  have hsg : (g d * (-1) ^ d).sign = (g d).sign * (-1) ^ d := by
    rw [Int.sign_mul]
    rcases neg_one_pow_eq_or ℤ d with h | h <;> rw [h] <;> rfl
  rw [hsg] at hv2
  have hneg : ∀ t : ℝ, (rp (fun i => g i * (-1) ^ i) d).eval t = (desPoly f d).eval (-t) := by
    intro t
    have : desPoly f d = rp g d := by unfold desPoly rp; rw [hg, toPoly_desCoeff]
    rw [this, rp_eval, rp_eval, aeval_toPoly, aeval_toPoly]
    refine Finset.sum_congr rfl fun i _ => ?_
    rw [neg_pow t]; push_cast; ring
  have hx0 : ∀ x ∈ S, x ≠ 0 := by
    rintro x hx rfl
    have := rp_eval_zero f d
    rw [hS 0 hx, mul_zero] at this
    exact h0 (by exact_mod_cast this)
  have hx1 : ∀ x ∈ S, x ≠ 1 := by
    rintro x hx rfl
    have := rp_eval_one f d
    rw [hS 1 hx, mul_zero] at this
    exact h1 (by exact_mod_cast this)
  -- the roots outside
  set O := S.filter fun x => ¬ (0 < x ∧ x < 1) with hO
  have hOc : O.card ≤ signVariations (rp (fun i => g i * (-1) ^ i) d) := by
    have hinj : Set.InjOn (fun x : ℝ => 1 - 1 / x) (O : Set ℝ) := by
      intro x hx y hy hxy
      have hx := hx0 x (Finset.mem_filter.mp hx).1
      have hy := hx0 y (Finset.mem_filter.mp hy).1
      simp only at hxy
      have : 1 / x = 1 / y := by linarith
      field_simp at this
      exact this.symm
    rw [← Finset.card_image_of_injOn hinj]
    refine card_pos_roots_le (rp_ne_zero hgn) _ fun t ht => ?_
    obtain ⟨x, hx, rfl⟩ := Finset.mem_image.mp ht
    obtain ⟨hxS, hxo⟩ := Finset.mem_filter.mp hx
    have e0 := hx0 x hxS
    have e1 := hx1 x hxS
    refine ⟨?_, ?_⟩
    · rcases lt_or_gt_of_ne e0 with h | h
      · have : 1 / x < 0 := one_div_neg.mpr h
        linarith
      · have h2 : 1 < x := lt_of_le_of_ne (by by_contra hc; exact hxo ⟨h, not_le.mp hc⟩) (Ne.symm e1)
        have : 1 / x < 1 := by rw [div_lt_one h]; exact h2
        linarith
    · rw [hneg, desPoly_eval f d (by
        have : -(1 - 1 / x) + 1 = 1 / x := by ring
        rw [this]; exact one_div_ne_zero e0)]
      rw [show 1 / (-(1 - 1 / x) + 1) = x by
        rw [show -(1 - 1 / x) + 1 = 1 / x by ring, one_div_one_div], hS x hxS, mul_zero]
  have hpart : (S.filter fun x => 0 < x ∧ x < 1).card + O.card = S.card :=
    Finset.card_filter_add_card_filter_not _
  have hv2' : signVariations (rp (fun i => g i * (-1) ^ i) d) =
      svCount ((g d).sign * (-1) ^ d) (desc (fun i => g i * (-1) ^ i) d) := hv2
  rw [hv]
  omega

theorem full_of_mul {D E : ℝ[X]} {e : ℝ} (hD : D = (X - C e) * E) (hE : E ≠ 0) (h : Full D) : Full E := by
  classical
  unfold Full at h ⊢
  have h1 : D.natDegree = E.natDegree + 1 := by
    rw [hD, natDegree_mul (X_sub_C_ne_zero e) hE, natDegree_X_sub_C, add_comm]
  have h2 : D.roots.toFinset ⊆ insert e E.roots.toFinset := by
    rw [hD, roots_mul (mul_ne_zero (X_sub_C_ne_zero e) hE), roots_X_sub_C]
    intro x hx
    simpa using hx
  have := (Finset.card_le_card h2).trans (Finset.card_insert_le _ _)
  omega

theorem full_mul {D E : ℝ[X]} {e : ℝ} (hD : D = (X - C e) * E) (hE : E.eval e ≠ 0) (h : Full E) : Full D := by
  classical
  have hE0 : E ≠ 0 := by rintro rfl; simp at hE
  unfold Full at h ⊢
  have h1 : D.natDegree = E.natDegree + 1 := by
    rw [hD, natDegree_mul (X_sub_C_ne_zero e) hE0, natDegree_X_sub_C, add_comm]
  have h2 : insert e E.roots.toFinset ⊆ D.roots.toFinset := by
    rw [hD, roots_mul (mul_ne_zero (X_sub_C_ne_zero e) hE0), roots_X_sub_C]
    intro x hx
    simpa using hx
  have h3 := Finset.card_le_card h2
  rw [Finset.card_insert_of_notMem] at h3
  · omega
  · rw [Multiset.mem_toFinset, mem_roots hE0]; exact hE

theorem Simple.factor {D E : ℝ[X]} {e : ℝ} (h : Simple D) (hD : D = (X - C e) * E) : E.eval e ≠ 0 := by
  intro h0
  apply h e
  · rw [hD, eval_mul, h0, mul_zero]
  · rw [hD, derivative_mul, eval_add, eval_mul, eval_mul, h0]; simp

/-! ### one node -/

theorem node_exact {s : St} {D : ℝ[X]} {α β : ℝ} (hs : Valid s) (hrep : Rep s D α β) (hα : 0 < α)
    (ha : D.eval β ≠ 0) (hb : D.eval (α + β) ≠ 0) (hfull : Full D) :
    varShift (reversed s.up s.deg) s.deg ≤ (D.roots.toFinset.filter fun y => β < y ∧ y < α + β).card := by
  classical
  have hnode := node_of hs hrep hα ha hb
  have hD0 : D ≠ 0 := by rintro rfl; simp at ha
  have hinj : Function.Injective (fun y : ℝ => (y - β) / α) := by
    intro x y hxy
    simp only at hxy
    field_simp at hxy
    linarith
  have h1 := var_exact hnode.zero hnode.one (D.roots.toFinset.image fun y => (y - β) / α) (fun x hx => by
      obtain ⟨y, hy, rfl⟩ := Finset.mem_image.mp hx
      rw [Multiset.mem_toFinset, mem_roots hD0] at hy
      rw [hrep.zero_iff, show α * ((y - β) / α) + β = y by field_simp; ring]
      exact hy) (by
      rw [Finset.card_image_of_injective _ hinj, ← rep_natDegree hs hrep hα.ne']
      exact hfull)
  refine h1.trans ?_
  rw [Finset.filter_image, Finset.card_image_of_injective _ hinj]
  refine Finset.card_le_card fun y hy => ?_
  obtain ⟨hy, h2, h3⟩ := Finset.mem_filter.mp hy
  refine Finset.mem_filter.mpr ⟨hy, ?_, ?_⟩
  · have := (div_pos_iff_of_pos_right hα).mp h2; linarith
  · rw [div_lt_one hα] at h3; linarith

theorem manageHalf_ok {s : St} {D : ℝ[X]} {α β : ℝ} (hs : Valid s) (hrep : Rep s D α β) (hα : α ≠ 0) (hD : Simple D)
    (h1 : D.natDegree = 1 → D.eval (α * (1 / 2) + β) ≠ 0) : ∃ s1 half shalf, manageHalf s = .ok s1 half shalf := by
  have hzero : ∀ (f : ℕ → ℤ) (d : ℕ), evalOneHalf f d = 0 ↔ (rp f d).eval (1 / 2) = 0 := by
    intro f d
    have := rp_eval_half f d
    constructor
    · intro h0
      rw [h0] at this
      have h2 : (2 : ℝ) ^ d ≠ 0 := by positivity
      exact (mul_eq_zero.mp (by simpa using this.symm)).resolve_left h2
    · intro h0
      rw [h0, mul_zero] at this
      exact_mod_cast this
  unfold manageHalf
  simp only
  split
  · rename_i h0
    have h0 : evalOneHalf s.up s.deg = 0 := Int.sign_eq_zero_iff_zero.mp h0
    have hroot := (hzero _ _).mp h0
    have hdeg := hs.deg_pos
    obtain ⟨q, e, hq1, hq2⟩ := numerQuotient_spec (K := ℝ) (up := s.up) (deg := s.deg) (c := 1) (k := 1)
      (by omega) (by rw [← rp_eval]; simpa using hroot)
    rw [hq1]
    simp only
    have hDm : D.eval (α * (1 / 2) + β) = 0 := (hrep.zero_iff (1 / 2)).mp hroot
    have hnd := rep_natDegree hs hrep hα
    split
    · -- a double root
      rename_i hq0
      exfalso
      have hq0 := (hzero _ _).mp (Int.sign_eq_zero_iff_zero.mp hq0)
      obtain ⟨u, hu, hue⟩ := hrep
      have hid : C (2 ^ ((s.deg - 1) * 1) : ℝ) * rp s.up s.deg = C (2 ^ e : ℝ) * ((X - C (1 / 2)) * rp q (s.deg - 1)) := by
        refine Polynomial.funext fun x => ?_
        have h1 := hq2 x
        rw [← rp_eval, ← rp_eval] at h1
        simp only [eval_mul, eval_sub, eval_X, eval_C, Int.cast_one, pow_one] at h1 ⊢
        exact h1
      have hder := congrArg (fun p => (derivative p).eval (1 / 2)) hid
      simp only [derivative_mul, derivative_C, zero_mul, zero_add, derivative_sub, derivative_X, sub_zero, one_mul,
        eval_mul, eval_add, eval_sub, eval_X, eval_C, hq0, sub_self, add_zero, mul_zero] at hder
      have hder0 : (derivative (rp s.up s.deg)).eval (1 / 2) = 0 :=
        (mul_eq_zero.mp hder).resolve_left (by positivity)
      rw [hue] at hder0
      simp only [derivative_mul, derivative_C, zero_mul, zero_add, derivative_comp, derivative_add, derivative_X,
        mul_one, add_zero, eval_mul, eval_C, eval_comp, eval_add, eval_X] at hder0
      refine hD _ hDm ?_
      have h3 := (mul_eq_zero.mp hder0).resolve_left hu
      exact (mul_eq_zero.mp h3).resolve_left hα
    · split
      · rename_i hupd
        exfalso
        unfold updPwx at hupd
        simp only [Option.map_eq_none_iff] at hupd
        by_cases hd1 : s.deg = 1
        · exact h1 (by rw [hnd, hd1]) hDm
        · obtain ⟨p, hp, _⟩ := degPower_spec (s.deg - 1) (by omega)
          rw [hp] at hupd
          cases hupd
      · exact ⟨_, _, _, rfl⟩
  · exact ⟨_, _, _, rfl⟩

theorem real_sign_mul_neg {x y : ℤ} {u v p q : ℝ} (hu : 0 < u) (hv : 0 < v) (hx : (x : ℝ) = u * p) (hy : (y : ℝ) = v * q)
    (h : p * q < 0) : x.sign * y.sign < 0 := by
  have : ((x * y : ℤ) : ℝ) < 0 := by
    push_cast
    rw [hx, hy, show u * p * (v * q) = (u * v) * (p * q) by ring]
    exact mul_neg_of_pos_of_neg (mul_pos hu hv) h
  rw [← Int.sign_mul, Int.sign_eq_neg_one_of_neg (by exact_mod_cast this)]
  decide

theorem one_root_sign {D : ℝ[X]} {a m x : ℝ} (hD : Simple D) (h1 : a < x) (h2 : x < m) (h0 : D.eval x = 0)
    (ha : D.eval a ≠ 0) (hm : D.eval m ≠ 0) (hu : ∀ y, a < y → y < m → D.eval y = 0 → y = x) :
    D.eval a * D.eval m < 0 := by
  obtain ⟨Q, hQ⟩ := dvd_iff_isRoot.mpr (show D.IsRoot x from h0)
  have hQx := hD.factor hQ
  have hQa : Q.eval a ≠ 0 := fun h => ha (by rw [hQ, eval_mul, h, mul_zero])
  have hQm : Q.eval m ≠ 0 := fun h => hm (by rw [hQ, eval_mul, h, mul_zero])
  have hpos : 0 < Q.eval a * Q.eval m := by
    rcases lt_or_gt_of_ne (mul_ne_zero hQa hQm) with h | h
    · obtain ⟨y, y1, y2, y3⟩ := exists_root_between Q (h1.trans h2) h
      have := hu y y1 y2 (by rw [hQ, eval_mul, y3, mul_zero])
      rw [this] at y3
      exact absurd y3 hQx
    · exact h
  rw [hQ]
  simp only [eval_mul, eval_sub, eval_X, eval_C]
  have h3 : (a - x) * (m - x) < 0 := mul_neg_of_neg_of_pos (by linarith) (by linarith)
  have := mul_neg_of_neg_of_pos h3 hpos
  linarith [this, show (a - x) * Q.eval a * ((m - x) * Q.eval m) = (a - x) * (m - x) * (Q.eval a * Q.eval m) by ring]

theorem Rep.sign_neg {s : St} {D : ℝ[X]} {α β : ℝ} (h : Rep s D α β) {x y : ℝ}
    (hxy : D.eval (α * x + β) * D.eval (α * y + β) < 0) : (rp s.up s.deg).eval x * (rp s.up s.deg).eval y < 0 := by
  obtain ⟨u, hu, hue⟩ := h.eval
  rw [hue, hue, show u * D.eval (α * x + β) * (u * D.eval (α * y + β))
    = (u * u) * (D.eval (α * x + β) * D.eval (α * y + β)) by ring]
  exact mul_neg_of_pos_of_neg (mul_self_pos.mpr hu) hxy

end Verif.UIsolate
