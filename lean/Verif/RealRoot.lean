import Verif.RealBox

/-!
One real root: refinement until the denominator has a sign, coordinates.
-/
namespace Verif.RealPoints
open Verif.UPoly Verif.UEval Verif.USign Verif.UIsolate Verif.Isolate Verif.URefine Verif.Spec
open Polynomial

/-! ### The exponent never decreases -/

theorem makeExact_k {up : ℕ → ℤ} {deg : ℕ} {x k va vb : ℤ} {t : RSt} (h : makeExact up deg x k va vb = some t) :
    t.rt.k = k := by
  unfold makeExact at h
  obtain ⟨r, _, rfl⟩ := Option.map_eq_some_iff.mp h
  rfl

theorem grid_newk (rt : Ival) (N : ℕ) : (grid rt N).newk = rt.k + N := (grid_spec (rt := rt) N).2.1

theorem rightLoop_k {up : ℕ → ℤ} {deg : ℕ} {g : Grid} {rt0 : Ival} {mx : Option ℤ} {k : ℤ} (hg : k ≤ g.newk) (h0 : k ≤ rt0.k) :
    ∀ (n : ℕ) (i x va : ℤ) (t : RSt), rightLoop up deg g rt0 mx n i x va = some t → k ≤ t.rt.k
  | 0, _, _, _, _, h => by simp [rightLoop] at h
  | n + 1, i, x, va, t, h => by
    rw [rightLoop] at h
    split at h
    · rw [makeExact_k h]; exact hg
    · split at h
      · obtain rfl := Option.some.inj h; exact hg
      · split at h
        · exact rightLoop_k hg h0 n _ _ _ t h
        · obtain rfl := Option.some.inj h; exact h0

theorem leftLoop_k {up : ℕ → ℤ} {deg : ℕ} {g : Grid} {k : ℤ} (hg : k ≤ g.newk) :
    ∀ (n : ℕ) (x va : ℤ) (t : RSt), leftLoop up deg g n x va = some t → k ≤ t.rt.k
  | 0, _, _, _, h => by simp [leftLoop] at h
  | n + 1, x, va, t, h => by
    rw [leftLoop] at h
    split at h
    · rw [makeExact_k h]; exact hg
    · split at h
      · obtain rfl := Option.some.inj h; exact hg
      · exact leftLoop_k hg n _ _ t h

theorem refineN_k {shl : ℕ → ℤ} {fuel : ℕ} {s t : RSt} {N : ℕ} {b : Bool} (h : refineN shl fuel s N = some (t, b)) :
    s.rt.k ≤ t.rt.k := by
  have hg : s.rt.k ≤ (grid s.rt N).newk := by rw [grid_newk]; omega
  have hme : ∀ {x va vb : ℤ} {c : Bool}, (makeExact s.up s.deg x (grid s.rt N).newk va vb).map (fun t => (t, c)) = some (t, b) →
      s.rt.k ≤ t.rt.k := by
    intro x va vb c hm
    obtain ⟨t', ht', he⟩ := Option.map_eq_some_iff.mp hm
    obtain ⟨rfl, _⟩ := Prod.mk.inj he
    rw [makeExact_k ht']; exact hg
  unfold refineN at h
  simp only at h
  split at h
  · obtain ⟨rfl, _⟩ := Prod.mk.inj (Option.some.inj h); exact le_rfl
  · rename_i index _
    generalize (if 0 ≤ index then index else (indexInterp s.va s.vb N).2) = j at h
    split at h
    · exact hme h
    · split at h
      · split at h
        · obtain ⟨rfl, _⟩ := Prod.mk.inj (Option.some.inj h); exact hg
        · split at h
          · exact hme h
          · split at h
            · obtain ⟨rfl, _⟩ := Prod.mk.inj (Option.some.inj h); exact hg
            · split at h
              · obtain ⟨rfl, _⟩ := Prod.mk.inj (Option.some.inj h); exact le_rfl
              · obtain ⟨t', ht', he⟩ := Option.map_eq_some_iff.mp h
                obtain ⟨rfl, _⟩ := Prod.mk.inj he
                refine rightLoop_k hg ?_ _ _ _ _ _ ht'
                exact le_rfl
      · split at h
        · obtain ⟨rfl, _⟩ := Prod.mk.inj (Option.some.inj h); exact hg
        · split at h
          · exact hme h
          · split at h
            · obtain ⟨rfl, _⟩ := Prod.mk.inj (Option.some.inj h); exact hg
            · split at h
              · obtain ⟨rfl, _⟩ := Prod.mk.inj (Option.some.inj h); exact le_rfl
              · obtain ⟨t', ht', he⟩ := Option.map_eq_some_iff.mp h
                obtain ⟨rfl, _⟩ := Prod.mk.inj he
                exact leftLoop_k hg _ _ _ _ ht'

theorem qir_k {shl : ℕ → ℤ} {fuel : ℕ} {prec : ℤ} : ∀ (n N : ℕ) (s t : RSt), qir shl fuel prec n N s = .done t → s.rt.k ≤ t.rt.k
  | 0, _, _, _, h => by simp [qir] at h
  | n + 1, N, s, t, h => by
    rw [qir] at h
    split at h
    · injection h with h; rw [h]
    · split at h
      · cases h
      · rename_i t' b hr
        have hk := refineN_k hr
        split at h
        · injection h with h; rw [← h]; exact hk
        · split at h
          · cases h
          · exact hk.trans (qir_k n _ _ _ h)

/-! ### The refinement of a root -/

/-- What a refinement does to a cell on which `P` changes its sign. -/
inductive Refined (P : ℝ[X]) (c c' : Cell) : Prop
  | exact (h : c'.exact = true) (h1 : c.lo < c'.lo) (h2 : c'.lo < c.hi) (h0 : P.eval c'.lo = 0)
  | smaller (h : c'.exact = false) (h1 : c.lo ≤ c'.lo) (h2 : c'.hi ≤ c.hi) (hs : P.eval c'.lo * P.eval c'.hi < 0)

theorem qir_refined (shl : ℕ → ℤ) (prec : ℤ) {up : ℕ → ℤ} {deg : ℕ} {rt : Ival} (hlead : up deg ≠ 0)
    (hex : rt.exact = false) (hsgn : (rp up deg).eval (icell rt).lo * (rp up deg).eval (icell rt).hi < 0) :
    ∃ K t, (∀ fuel ≥ K, qir shl fuel prec fuel 2
        ⟨up, deg, rt, (valuesAtBounds up deg rt.numer rt.k).1, (valuesAtBounds up deg rt.numer rt.k).2⟩ = .done t) ∧
      Refined (rp up deg) (icell rt) (icell t.rt) ∧ (t.rt.exact = true ∨ prec ≤ t.rt.k) ∧ rt.k ≤ t.rt.k := by
  obtain ⟨c, hc, h1, h2⟩ := valuesAtBounds_spec up deg rt
  generalize valuesAtBounds up deg rt.numer rt.k = v at *
  have hlo0 : (rp up deg).eval (icell rt).lo ≠ 0 := fun h => by rw [h, zero_mul] at hsgn; exact lt_irrefl _ hsgn
  have hhi0 : (rp up deg).eval (icell rt).hi ≠ 0 := fun h => by rw [h, mul_zero] at hsgn; exact lt_irrefl _ hsgn
  have hv1 : v.1 ≠ 0 := by
    intro h; rw [h, Int.cast_zero, eq_comm, mul_eq_zero] at h1; exact h1.elim hc.ne' hlo0
  have hv2 : v.2 ≠ 0 := by
    intro h; rw [h, Int.cast_zero, eq_comm, mul_eq_zero] at h2; exact h2.elim hc.ne' hhi0
  have hbr : Bracket ⟨up, deg, rt, v.1, v.2⟩ := by
    refine ⟨hex, real_sign hc h1 hv1, real_sign hc h2 hv2, sign_ne_of_mul_neg ?_⟩
    simp only
    rw [h1, h2]
    nlinarith [mul_pos hc hc]
  obtain ⟨K, t, hq, ho, hk⟩ := qir_spec shl prec (max 0 (prec - rt.k)).toNat 2
    ⟨up, deg, rt, v.1, v.2⟩ (by simp only; omega) ⟨0, rfl⟩ hlead hbr
  have hrun : ∀ fuel ≥ max 4 K, qir shl fuel prec fuel 2 ⟨up, deg, rt, v.1, v.2⟩ = .done t :=
    fun fuel hf => hq fuel (le_trans (le_max_left _ _) hf) fuel (le_trans (le_max_right _ _) hf)
  refine ⟨max 4 K, t, hrun, ?_, hk, qir_k _ _ _ _ (hrun _ le_rfl)⟩
  cases ho with
  | exact hte htl htd htlo hthi hfac hts =>
    obtain ⟨u, hu, hfac⟩ := hfac
    simp only at hfac
    exact Refined.exact hte htlo hthi (by rw [hfac]; simp)
  | smaller hup htd hbt htlo hthi =>
    simp only at hup htd htlo hthi
    refine Refined.smaller hbt.open' htlo hthi ?_
    rw [← hup, ← htd]
    exact mul_neg_of_sign_ne hbt.opp hbt.lo hbt.hi

theorem refineRt_spec (shl : ℕ → ℤ) {p : Param} {rt : Ival} (hlead : p.elim p.nsols ≠ 0) (hex : rt.exact = false) (hk : 0 < rt.k)
    (hsgn : (rp p.elim p.nsols).eval (icell rt).lo * (rp p.elim p.nsols).eval (icell rt).hi < 0) :
    ∃ K rt', (∀ fuel ≥ K, refineRt shl fuel p rt = .done rt') ∧ Refined (rp p.elim p.nsols) (icell rt) (icell rt') ∧
      (rt'.exact = true ∨ 2 * rt.k ≤ rt'.k) ∧ rt.k ≤ rt'.k := by
  unfold refineRt
  by_cases hn : 0 ≤ rt.numer
  · simp only [if_pos hn]
    obtain ⟨K, t, hrun, hr, hpk, hkk⟩ := qir_refined shl (2 * rt.k) hlead hex hsgn
    exact ⟨K, t.rt, fun fuel hf => by rw [hrun fuel hf], hr, hpk, hkk⟩
  · simp only [if_neg hn]
    have hopp := opp_reflect hex
    have hrefl : URefine.reflect rt = ⟨-(rt.numer + 1), rt.k, rt.exact⟩ := by unfold URefine.reflect; rw [if_pos hk]
    rw [hrefl] at hopp
    obtain ⟨hl, hh⟩ := hopp.2.2 hex
    obtain ⟨K, t, hrun, hr, hpk, hkk⟩ := qir_refined shl (2 * rt.k + p.nsols) (up := altSign p.elim) (deg := p.nsols)
      (rt := ⟨-(rt.numer + 1), rt.k, rt.exact⟩) (altSign_ne hlead) hex (by
        rw [rp_altSign, hl, hh]
        simp only [eval_comp, eval_neg, eval_X, neg_neg]
        linarith)
    simp only at hkk
    have hback := opp_back (t := t.rt) (Or.inr (by omega))
    refine ⟨K, _, fun fuel hf => by rw [hrun fuel hf], ?_, ?_, ?_⟩
    · cases hr with
      | exact h h1 h2 h0 =>
        have hb := hback.2.1 h
        rw [hl] at h1
        rw [hh] at h2
        rw [rp_altSign] at h0
        simp only [eval_comp, eval_neg, eval_X] at h0
        exact Refined.exact (hback.1.trans h) (by rw [hb]; linarith) (by rw [hb]; linarith) (by rw [hb]; exact h0)
      | smaller h h1 h2 hs =>
        obtain ⟨b1, b2⟩ := hback.2.2 h
        rw [hl] at h1
        rw [hh] at h2
        rw [rp_altSign] at hs
        simp only [eval_comp, eval_neg, eval_X] at hs
        exact Refined.smaller (hback.1.trans h) (by rw [b1]; linarith) (by rw [b2]; linarith) (by rw [b1, b2]; linarith)
    · rcases hpk with h | h
      · left; rw [if_pos h]
      · split
        · exact Or.inl rfl
        · right; simp only; omega
    · split <;> simpa using hkk

/-! ### The denominator -/

theorem icell_pos {rt : Ival} (hk : 0 ≤ rt.k) :
    (icell rt).lo = (rt.numer : ℝ) / 2 ^ rt.k.toNat ∧ (icell rt).hi = ((rt.numer : ℝ) + 1) / 2 ^ rt.k.toNat := by
  obtain ⟨a, k, ex⟩ := rt
  obtain ⟨m, rfl⟩ : ∃ m : ℕ, k = m := ⟨k.toNat, by simp only at hk; omega⟩
  unfold icell
  simp only [Int.toNat_natCast]
  have h2 : (2 : ℝ) ^ (if 0 < (m : ℤ) then -(m : ℤ) else 0) = 1 / 2 ^ m := by
    split
    · rw [zpow_neg, zpow_natCast, one_div]
    · rename_i h
      have : m = 0 := by omega
      subst this; simp
  rw [h2, zpow_neg, zpow_natCast]
  constructor
  · ring
  · ring

theorem cell_scaled {rt : Ival} (hk : 0 ≤ rt.k) {x : ℝ} (h1 : (icell rt).lo < x) (h2 : x < (icell rt).hi) :
    (rt.numer : ℝ) ≤ 2 ^ rt.k.toNat * x ∧ 2 ^ rt.k.toNat * x ≤ rt.numer + 1 := by
  obtain ⟨e1, e2⟩ := icell_pos hk
  rw [e1, div_lt_iff₀ (by positivity)] at h1
  rw [e2, lt_div_iff₀ (by positivity)] at h2
  constructor <;> linarith

theorem newvalue_eq (den : ℕ → ℤ) (d : ℕ) (r : ℤ) (k corr : ℕ) :
    newvalueDenom den (d + 1) r k corr =
      let s := iv den d k r (r + 1) d
      let lo := (s.1 * 2 ^ corr).fdiv (2 ^ (k * d))
      let hi := cdivq (s.2 * 2 ^ corr) (2 ^ (k * d))
      some (decide (s.1.sign ≠ s.2.sign) || decide (lo = 0) || decide (hi = 0), lo, hi) := by
  unfold newvalueDenom
  rw [evalInterval_some (ends_succ r)]
  simp only [Nat.add_sub_cancel]
  rw [if_neg (not_lt.mpr (iv_le (ends_succ r) den d k d))]

/-- A denominator that is accepted has a sign; it is enclosed if its interval evaluation is. -/
theorem newvalue_false {den : ℕ → ℤ} {d : ℕ} {r : ℤ} {k corr : ℕ} {lo hi : ℤ}
    (h : newvalueDenom den (d + 1) r k corr = some (false, lo, hi)) :
    lo ≤ hi ∧ (0 < lo ∨ hi < 0) ∧ ∀ y : ℝ, ((iv den d k r (r + 1) d).1 : ℝ) ≤ 2 ^ (k * d) * y →
      2 ^ (k * d) * y ≤ (iv den d k r (r + 1) d).2 → (lo : ℝ) ≤ 2 ^ corr * y ∧ 2 ^ corr * y ≤ hi := by
  rw [newvalue_eq] at h
  simp only [Option.some.injEq, Prod.mk.injEq, Bool.or_eq_false_iff, decide_eq_false_iff_not, not_not] at h
  obtain ⟨⟨⟨hs, h1⟩, h2⟩, h3, h4⟩ := h
  rw [h3] at h1
  rw [h4] at h2
  have hle := iv_le (ends_succ r) den d k d
  generalize iv den d k r (r + 1) d = s at *
  have hz : (2 : ℤ) ^ (k * d) ≠ 0 := by positivity
  have hp : (0 : ℝ) < 2 ^ (k * d) := by positivity
  have hc : (0 : ℝ) < 2 ^ corr := by positivity
  rw [fdiv_eq_floor _ hz] at h3
  rw [cdivq_eq_ceil _ hz] at h4
  push_cast at h3 h4
  have hencl : ∀ y : ℝ, (s.1 : ℝ) ≤ 2 ^ (k * d) * y → 2 ^ (k * d) * y ≤ s.2 → (lo : ℝ) ≤ 2 ^ corr * y ∧ 2 ^ corr * y ≤ hi := by
    intro y hy1 hy2
    rw [← h3, ← h4]
    constructor
    · refine (Int.floor_le _).trans ?_
      rw [div_le_iff₀ hp]; nlinarith
    · refine le_trans ?_ (Int.le_ceil _)
      rw [le_div_iff₀ hp]; nlinarith
  have hlh : lo ≤ hi := by
    have := hencl (s.1 / 2 ^ (k * d)) (by field_simp; exact le_rfl) (by field_simp; exact_mod_cast hle)
    exact_mod_cast this.1.trans this.2
  refine ⟨hlh, ?_, hencl⟩
  rcases lt_trichotomy s.1 0 with h | h | h
  · right
    have h' : s.2 < 0 := by
      rw [Int.sign_eq_neg_one_of_neg h] at hs
      rw [← Int.sign_eq_neg_one_iff_neg]; exact hs.symm
    have : hi ≤ 0 := by
      rw [← h4, Int.ceil_le]
      have : (s.2 : ℝ) < 0 := by exact_mod_cast h'
      rw [Int.cast_zero]
      exact div_nonpos_of_nonpos_of_nonneg (mul_nonpos_of_nonpos_of_nonneg this.le hc.le) hp.le
    omega
  · exfalso
    apply h1
    rw [← h3, h]; simp
  · left
    have : 0 ≤ lo := by
      rw [← h3, Int.le_floor]
      have : (0 : ℝ) < s.1 := by exact_mod_cast h
      rw [Int.cast_zero]; positivity
    omega

/-- A denominator that is not zero is accepted when the precisions are large enough. -/
theorem newvalue_eventually (den : ℕ → ℤ) (d : ℕ) {x : ℝ} (hne : lval den (d + 1) x ≠ 0) : ∃ P : ℕ, ∀ k ≥ P, ∀ corr ≥ P, ∀ r : ℤ,
    (r : ℝ) ≤ 2 ^ k * x → 2 ^ k * x ≤ r + 1 → ∃ lo hi, newvalueDenom den (d + 1) r k corr = some (false, lo, hi) := by
  rw [lval_succ, ← hv_deg] at hne
  obtain ⟨P, hP⟩ := iv_eventually den d d hne
  obtain ⟨P', hP'⟩ := pow_unbounded_of_one_lt (2 / |hv den d x d|) (by norm_num : (1 : ℝ) < 2)
  refine ⟨max P P', fun k hk corr hc r h1 h2 => ?_⟩
  rw [newvalue_eq]
  refine ⟨_, _, by
    simp only [Option.some.injEq, Prod.mk.injEq, Bool.or_eq_false_iff, decide_eq_false_iff_not, not_not]
    refine ⟨?_, rfl, rfl⟩
    have hz : (2 : ℤ) ^ (k * d) ≠ 0 := by positivity
    have hp : (0 : ℝ) < 2 ^ (k * d) := by positivity
    have hcp : (0 : ℝ) < 2 ^ corr := by positivity
    have habs : 0 < |hv den d x d| := abs_pos.mpr hne
    have hbig : 1 ≤ 2 ^ corr * (|hv den d x d| / 2) := by
      have : (2 : ℝ) ^ P' ≤ 2 ^ corr := pow_le_pow_right₀ (by norm_num) (le_trans (le_max_right _ _) hc)
      rw [div_lt_iff₀ habs] at hP'
      nlinarith
    rw [fdiv_eq_floor _ hz, cdivq_eq_ceil _ hz]
    push_cast
    rcases hP k (le_trans (le_max_left _ _) hk) r h1 h2 with ⟨h, h3, h4⟩ | ⟨h, h3, h4⟩
    · rw [abs_of_pos h] at hbig
      have hs : ∀ v : ℤ, 2 ^ (k * d) * (hv den d x d / 2) ≤ (v : ℝ) → 1 ≤ (v : ℝ) * 2 ^ corr / 2 ^ (k * d) := by
        intro v hv'
        rw [le_div_iff₀ hp]
        nlinarith [mul_le_mul_of_nonneg_right hv' hcp.le, mul_le_mul_of_nonneg_left hbig hp.le]
      have hpos : ∀ v : ℤ, 2 ^ (k * d) * (hv den d x d / 2) ≤ (v : ℝ) → 0 < v := by
        intro v hv'
        have : (0 : ℝ) < v := lt_of_lt_of_le (by positivity) hv'
        exact_mod_cast this
      refine ⟨⟨?_, ?_⟩, ?_⟩
      · rw [Int.sign_eq_one_of_pos (hpos _ h3), Int.sign_eq_one_of_pos (hpos _ h4)]
      · have : (1 : ℤ) ≤ ⌊((iv den d k r (r + 1) d).1 : ℝ) * 2 ^ corr / 2 ^ (k * d)⌋ := by
          rw [Int.le_floor]; exact_mod_cast hs _ h3
        omega
      · have : (0 : ℤ) < ⌈((iv den d k r (r + 1) d).2 : ℝ) * 2 ^ corr / 2 ^ (k * d)⌉ := by
          rw [Int.lt_ceil, Int.cast_zero]; linarith [hs _ h4]
        omega
    · rw [abs_of_neg h] at hbig
      have hs : ∀ v : ℤ, (v : ℝ) ≤ 2 ^ (k * d) * (hv den d x d / 2) → (v : ℝ) * 2 ^ corr / 2 ^ (k * d) ≤ -1 := by
        intro v hv'
        rw [div_le_iff₀ hp]
        nlinarith [mul_le_mul_of_nonneg_right hv' hcp.le, mul_le_mul_of_nonneg_left hbig hp.le]
      have hneg : ∀ v : ℤ, (v : ℝ) ≤ 2 ^ (k * d) * (hv den d x d / 2) → v < 0 := by
        intro v hv'
        have : (v : ℝ) < 0 := lt_of_le_of_lt hv' (mul_neg_of_pos_of_neg hp (by linarith))
        exact_mod_cast this
      refine ⟨⟨?_, ?_⟩, ?_⟩
      · rw [Int.sign_eq_neg_one_of_neg (hneg _ h3), Int.sign_eq_neg_one_of_neg (hneg _ h4)]
      · have : ⌊((iv den d k r (r + 1) d).1 : ℝ) * 2 ^ corr / 2 ^ (k * d)⌋ < 0 := by
          rw [Int.floor_lt, Int.cast_zero]; linarith [hs _ h3]
        omega
      · have : ⌈((iv den d k r (r + 1) d).2 : ℝ) * 2 ^ corr / 2 ^ (k * d)⌉ ≤ -1 := by
          rw [Int.ceil_le]; push_cast; exact hs _ h4
        omega⟩

end Verif.RealPoints
