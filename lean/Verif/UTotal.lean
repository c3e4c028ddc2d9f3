import Verif.UTerm

/-!
The bisection ends with a result if all real roots are simple.
-/
namespace Verif.UIsolate
open Verif.UPoly Verif.UEval Verif.UScale Verif.UTaylor Verif.USign Verif.UDescartes Verif.UBound Verif.Isolate
open Polynomial

theorem rep_left {s1 : St} {D : ℝ[X]} {c k : ℕ} (h1 : Valid s1) (hrep : Rep s1 D (1 / 2 ^ k) ((c : ℝ) / 2 ^ k)) :
    Valid { s1 with up := (rescale s1.up (-1) s1.deg).2 } ∧
      Rep { s1 with up := (rescale s1.up (-1) s1.deg).2 } D (1 / 2 ^ (k + 1)) (((2 * c : ℕ) : ℝ) / 2 ^ (k + 1)) := by
  refine ⟨⟨rescale_ne h1.lead, h1.cur, h1.pwx, h1.npwr⟩, ?_⟩
  obtain ⟨u, hu, hue⟩ := hrep.eval
  obtain ⟨w, hw, hwe⟩ := rescale_rp s1.up (-1) s1.deg
  refine Rep.of_eval (u := w * u) (mul_ne_zero hw hu) fun x => ?_
  simp only
  rw [hwe, hue, zpow_neg_one]
  rw [show (1 : ℝ) / 2 ^ k * (2⁻¹ * x) + (c : ℝ) / 2 ^ k = 1 / 2 ^ (k + 1) * x + ((2 * c : ℕ) : ℝ) / 2 ^ (k + 1) by
    rw [pow_succ]; push_cast; field_simp]
  ring

theorem rep_right {sl : St} {DL : ℝ[X]} {c k oldk : ℕ} {g : ℕ → ℤ} (hvl : Valid sl)
    (hrepl : Rep sl DL (1 / 2 ^ oldk) (((2 * c + 1 : ℕ) : ℝ) / 2 ^ (k + 1) - 1 / 2 ^ oldk)) (hk1 : k + 1 ≤ oldk)
    (hg2 : toPoly g sl.deg = (toPoly sl.up sl.deg).comp (X + 1)) :
    let s3 : St := { sl with up := if k + 1 < oldk then (rescale g ((oldk : ℤ) - (k + 1)) sl.deg).2 else g }
    Valid s3 ∧ Rep s3 DL (1 / 2 ^ (k + 1)) (((2 * c + 1 : ℕ) : ℝ) / 2 ^ (k + 1)) := by
  intro s3
  have hglead : g sl.deg ≠ 0 := by
    have := congrArg (fun p => p.coeff sl.deg) hg2
    simp only [coeff_toPoly, le_refl, if_true] at this
    rw [this, coeff_shift_top]
    exact hvl.lead
  have hgeval : ∀ x, (rp g sl.deg).eval x = (rp sl.up sl.deg).eval (x + 1) := by
    intro x
    rw [rp_eval, rp_eval, hg2, aeval_comp]
    simp
  refine ⟨⟨?_, hvl.cur, hvl.pwx, hvl.npwr⟩, ?_⟩
  · simp only [s3]
    split
    · exact rescale_ne hglead
    · exact hglead
  · obtain ⟨u, hu, hue⟩ := hrepl.eval
    by_cases hlt : k + 1 < oldk
    · obtain ⟨w, hw, hwe⟩ := rescale_rp g ((oldk : ℤ) - (k + 1)) sl.deg
      refine Rep.of_eval (u := w * u) (mul_ne_zero hw hu) fun x => ?_
      simp only [s3, if_pos hlt]
      rw [hwe, hgeval, hue]
      have e : (2 : ℝ) ^ ((oldk : ℤ) - (k + 1)) = 2 ^ oldk / 2 ^ (k + 1) := by
        rw [zpow_sub₀ (by norm_num), zpow_natCast]
        congr 1
      rw [e, mul_assoc]
      congr 3
      field_simp
      ring
    · have hke : oldk = k + 1 := by omega
      refine Rep.of_eval (u := u) hu fun x => ?_
      simp only [s3, if_neg hlt]
      rw [hgeval, hue, hke]
      congr 2
      ring

theorem oneCase_open (c k : ℕ) (half : Bool) (bot top shalf : ℤ) (h : top ≠ 0) :
    ∃ r ∈ oneCase c k half bot top shalf, r.exact = false := by
  unfold oneCase
  simp only [if_pos h]
  split
  · split
    · exact ⟨⟨2 * c, k + 1, false⟩, by simp, rfl⟩
    · exact ⟨⟨2 * c + 1, k + 1, false⟩, by simp, rfl⟩
  · exact ⟨⟨c, k, false⟩, by simp, rfl⟩

theorem full_exProd {E : ℝ[X]} (out : List Raw) : ∀ D : ℝ[X], Simple D → D = E * exProd out → Full E → Full D := by
  induction out with
  | nil => intro D _ h hE; rw [exProd_nil, mul_one] at h; rwa [h]
  | cons r out ih =>
    intro D hD h hE
    have e1 : exProd (r :: out) = exProd [r] * exProd out := exProd_append [r] out
    cases he : r.exact with
    | false =>
      have : exProd [r] = 1 := exProd_open _ (by simpa using he)
      rw [e1, this, one_mul] at h
      exact ih D hD h hE
    | true =>
      have e2 : exProd [r] = X - C ((r.c : ℝ) / 2 ^ r.k) := by simp [exProd, he]
      have h2 : D = (X - C ((r.c : ℝ) / 2 ^ r.k)) * (E * exProd out) := by rw [h, e1, e2]; ring
      exact full_mul h2 (hD.factor h2) (ih _ (hD.of_dvd ⟨_, by rw [h2, mul_comm]⟩) rfl hE)

theorem full_of_exProd {DL : ℝ[X]} (out : List Raw) : ∀ D : ℝ[X], D ≠ 0 → D = DL * exProd out → Full D → Full DL := by
  induction out with
  | nil => intro D _ h hD; rw [exProd_nil, mul_one] at h; rwa [← h]
  | cons r out iho =>
    intro D hD0 h hD
    have e1 : exProd (r :: out) = exProd [r] * exProd out := exProd_append [r] out
    cases he : r.exact with
    | false =>
      have e2 : exProd [r] = 1 := exProd_open _ (by simpa using he)
      rw [e1, e2, one_mul] at h
      exact iho D hD0 h hD
    | true =>
      have e2 : exProd [r] = X - C ((r.c : ℝ) / 2 ^ r.k) := by simp [exProd, he]
      have h2 : D = (X - C ((r.c : ℝ) / 2 ^ r.k)) * (DL * exProd out) := by rw [h, e1, e2]; ring
      have h3 : DL * exProd out ≠ 0 := by
        intro h3; rw [h3, mul_zero] at h2; exact hD0 h2
      exact iho _ h3 rfl (full_of_mul h2 h3 hD)

theorem open_root {D D' : ℝ[X]} {I : Set ℝ} {out : List Raw} (hfact : D = D' * exProd out)
    (hiso : Isolates D I (out.map rawCell)) {r : Raw} (hr : r ∈ out) (he : r.exact = false) :
    ∃ x ∈ I, D'.eval x = 0 := by
  obtain ⟨x, ⟨hx1, hx2⟩, _⟩ := hiso.unique (rawCell r) (List.mem_map.mpr ⟨r, hr, rfl⟩)
  refine ⟨x, hiso.sub _ (List.mem_map.mpr ⟨r, hr, rfl⟩) hx1, ?_⟩
  rw [hfact, eval_mul] at hx2
  refine (mul_eq_zero.mp hx2).resolve_right (exProd_eval_ne fun q hq hqe heq => ?_)
  have hxq : x ∈ (rawCell q).set := by
    unfold Cell.set rawCell
    rw [if_pos hqe, heq]; rfl
  have hord := hiso.order
  rw [List.pairwise_map] at hord
  have hne : r ≠ q := by rintro rfl; rw [he] at hqe; cases hqe
  have hall : ∀ a ∈ out, ∀ b ∈ out, a ≠ b →
      (∀ x ∈ (rawCell a).set, ∀ y ∈ (rawCell b).set, x < y) ∨ (∀ x ∈ (rawCell b).set, ∀ y ∈ (rawCell a).set, x < y) := by
    clear hr hq hiso hfact hx2
    induction out with
    | nil => intro a ha; cases ha
    | cons z out ih =>
      rw [List.pairwise_cons] at hord
      intro a ha b hb hab
      rcases List.mem_cons.mp ha with rfl | ha'
      · rcases List.mem_cons.mp hb with rfl | hb
        · exact absurd rfl hab
        · exact Or.inl (hord.1 b hb)
      · rcases List.mem_cons.mp hb with rfl | hb
        · exact Or.inr (hord.1 a ha')
        · exact ih hord.2 a ha' b hb hab
  rcases hall r hr q hq hne with h | h
  · exact lt_irrefl _ (h x hx1 x hxq)
  · exact lt_irrefl _ (h x hxq x hx1)

/-- Two roots in one half, unless each half has exactly one. -/
theorem two_in_half {D1 : ℝ[X]} {a m b : ℝ} {v : ℕ} (hsimple1 : Simple D1) (ha1 : D1.eval a ≠ 0) (hm1 : D1.eval m ≠ 0)
    (hb1 : D1.eval b ≠ 0) (hcard : v ≤ (D1.roots.toFinset.filter fun y => a < y ∧ y < b).card) (hv2 : 2 ≤ v)
    (hn2 : ¬ (v = 2 ∧ D1.eval a * D1.eval m < 0 ∧ D1.eval m * D1.eval b < 0)) :
    (∃ x y, a < x ∧ x < y ∧ y < m ∧ D1.eval x = 0 ∧ D1.eval y = 0) ∨
      (∃ x y, m < x ∧ x < y ∧ y < b ∧ D1.eval x = 0 ∧ D1.eval y = 0) := by
  by_contra hno
  push Not at hno
  obtain ⟨hnl, hnr⟩ := hno
  have hnl : ∀ x y, a < x → x < m → D1.eval x = 0 → a < y → y < m → D1.eval y = 0 → y = x := by
    intro x y h1 h2 h3 h4 h5 h6
    rcases lt_trichotomy x y with h | h | h
    · exact absurd h6 (hnl x y h1 h h5 h3)
    · exact h.symm
    · exact absurd h3 (hnl y x h4 h h2 h6)
  have hnr : ∀ x y, m < x → x < b → D1.eval x = 0 → m < y → y < b → D1.eval y = 0 → y = x := by
    intro x y h1 h2 h3 h4 h5 h6
    rcases lt_trichotomy x y with h | h | h
    · exact absurd h6 (hnr x y h1 h h5 h3)
    · exact h.symm
    · exact absurd h3 (hnr y x h4 h h2 h6)
  have hmem : ∀ y, y ∈ D1.roots.toFinset.filter (fun y => a < y ∧ y < b) ↔
      a < y ∧ y < b ∧ D1.eval y = 0 := by
    intro y
    rw [Finset.mem_filter, Multiset.mem_toFinset, mem_roots hsimple1.ne_zero, IsRoot.def]
    tauto
  obtain ⟨x, hx, y, hy, hxy⟩ := Finset.one_lt_card.mp (lt_of_lt_of_le (by omega : 1 < v) hcard)
  -- `x` to the left, `y` to the right
  obtain ⟨x, y, hx, hy, hxm, hym⟩ : ∃ x y, (a < x ∧ x < b ∧ D1.eval x = 0) ∧
      (a < y ∧ y < b ∧ D1.eval y = 0) ∧ x < m ∧ m < y := by
    have hx := (hmem x).mp hx
    have hy := (hmem y).mp hy
    have hxm : x ≠ m := fun h => hm1 (by rw [← h]; exact hx.2.2)
    have hym : y ≠ m := fun h => hm1 (by rw [← h]; exact hy.2.2)
    rcases lt_or_gt_of_ne hxm with h1 | h1 <;> rcases lt_or_gt_of_ne hym with h2 | h2
    · exact absurd (hnl x y hx.1 h1 hx.2.2 hy.1 h2 hy.2.2).symm hxy
    · exact ⟨x, y, hx, hy, h1, h2⟩
    · exact ⟨y, x, hy, hx, h2, h1⟩
    · exact absurd (hnr x y h1 hx.2.1 hx.2.2 h2 hy.2.1 hy.2.2).symm hxy
  have hv2' : v ≤ 2 := by
    refine hcard.trans ((Finset.card_le_card (t := {x, y}) fun z hz => ?_).trans Finset.card_le_two)
    obtain ⟨z1, z2, z3⟩ := (hmem z).mp hz
    have hzm : z ≠ m := fun h => hm1 (by rw [← h]; exact z3)
    rw [Finset.mem_insert, Finset.mem_singleton]
    rcases lt_or_gt_of_ne hzm with h | h
    · exact Or.inl (hnl x z hx.1 hxm hx.2.2 z1 h z3)
    · exact Or.inr (hnr y z hym hy.2.1 hy.2.2 h z2 z3)
  refine hn2 ⟨by omega, ?_, ?_⟩
  · exact one_root_sign hsimple1 hx.1 hxm hx.2.2 ha1 hm1 fun z z1 z2 z3 => hnl x z hx.1 hxm hx.2.2 z1 z2 z3
  · exact one_root_sign hsimple1 hym hy.2.1 hy.2.2 hm1 hb1 fun z z1 z2 z3 => hnr y z hym hy.2.1 hy.2.2 z1 z2 z3

/-- The bisection ends with a result. The last clause (there are only real roots, at least two of them in the
interval) is what keeps the degree positive. -/
theorem bisect_ok (K : ℕ) (fuel : ℕ) : ∀ (s : St) (c k : ℕ) (D : ℝ[X]),
    Valid s → Rep s D (1 / 2 ^ k) ((c : ℝ) / 2 ^ k) → c < 2 ^ k → D.eval ((c : ℝ) / 2 ^ k) ≠ 0 →
    D.eval (((c : ℝ) + 1) / 2 ^ k) ≠ 0 → Simple D → Short K D →
    (D.natDegree = 1 → D.eval (((2 * c + 1 : ℕ) : ℝ) / 2 ^ (k + 1)) ≠ 0) → k ≤ K → K < k + fuel →
    ∃ s' out ret, bisect fuel s c k = .done s' out ret ∧
      (Full D → (∃ x y, (c : ℝ) / 2 ^ k < x ∧ x < y ∧ y < ((c : ℝ) + 1) / 2 ^ k ∧ D.eval x = 0 ∧ D.eval y = 0) →
        ∃ r ∈ out, r.exact = false) := by
  induction fuel with
  | zero => intro s c k D _ _ _ _ _ _ _ _ h1 h2; omega
  | succ fuel ih =>
    intro s c k D hs hrep hck ha hb hsimple hshort hlin hkK hKf
    have hp : (0 : ℝ) < 2 ^ k := by positivity
    set α : ℝ := 1 / 2 ^ k with hα
    have hαpos : 0 < α := by positivity
    set β : ℝ := (c : ℝ) / 2 ^ k with hβ
    have hbe : ((c : ℝ) + 1) / 2 ^ k = α + β := by rw [hα, hβ]; ring
    have hme : α * (1 / 2) + β = ((2 * c + 1 : ℕ) : ℝ) / 2 ^ (k + 1) := by
      rw [hα, hβ, pow_succ]; push_cast; field_simp; ring
    have hae : β = ((2 * c : ℕ) : ℝ) / 2 ^ (k + 1) := by
      rw [hβ, pow_succ]; push_cast; field_simp
    rw [hbe] at hb
    have hup0 := (node_of hs hrep hαpos ha hb).zero
    obtain ⟨s1, half, shalf, hmh⟩ := manageHalf_ok hs hrep hαpos.ne' hsimple (by rw [hme]; exact hlin)
    simp only [bisect]
    rw [show zeroRoot s c k = .done s [] none by unfold zeroRoot; rw [if_neg hup0]]
    simp only [List.nil_append]
    rw [hmh]
    simp only
    obtain ⟨D1, hs1, hrep1, hm1, hD, hsh, hsh0⟩ := manageHalf_spec hs hrep hαpos.ne' hmh
    have hD1 : ∀ x, D.eval x ≠ 0 → D1.eval x ≠ 0 := by
      intro x hx h0
      apply hx
      rw [hD, eval_mul, h0, mul_zero]
    have hD1d : D1 ∣ D := ⟨_, by rw [mul_comm]; exact hD⟩
    have hsimple1 := hsimple.of_dvd hD1d
    have hshort1 := hshort.of_dvd hD1d
    have ha1 := hD1 _ ha
    have hb1 := hD1 _ hb
    have hnode := node_of hs1 hrep1 hαpos ha1 hb1
    have hexact := node_exact hs1 hrep1 hαpos ha1 hb1
    rw [hme] at hm1 hD hnode
    set m := ((2 * c + 1 : ℕ) : ℝ) / 2 ^ (k + 1) with hm
    have hbm : ((2 * c + 1 : ℕ) + 1 : ℝ) / 2 ^ (k + 1) = α + β := by
      rw [hα, hβ, pow_succ]; push_cast; field_simp; ring
    have hma : (((2 * c : ℕ) : ℝ) + 1) / 2 ^ (k + 1) = m := by rw [hm]; push_cast; rfl
    have hDroot : ∀ x, D.eval x = 0 → x ≠ m → D1.eval x = 0 := by
      intro x hx hne
      rw [hD, eval_mul] at hx
      refine (mul_eq_zero.mp hx).resolve_left ?_
      split
      · simp only [eval_sub, eval_X, eval_C]; exact sub_ne_zero.mpr hne
      · simp
    have hfull1 : Full D → Full D1 := by
      intro hf
      cases half with
      | false => rw [hD] at hf; simpa using hf
      | true => exact full_of_mul (by rw [if_pos rfl] at hD; exact hD) hsimple1.ne_zero hf
    rw [hbe]
    -- no root of `D1` in the interval: no two roots of `D`
    have hnone : (∀ y, β < y → y < α + β → D1.eval y ≠ 0) →
        (∃ x y, β < x ∧ x < y ∧ y < α + β ∧ D.eval x = 0 ∧ D.eval y = 0) → False := by
      rintro hno ⟨x, y, h1, h2, h3, h4, h5⟩
      by_cases hx : x = m
      · exact hno y (h1.trans h2) h3 (hDroot y h5 (by rw [← hx]; exact h2.ne'))
      · exact hno x h1 (h2.trans h3) (hDroot x h4 hx)
    have hdp := hs1.deg_pos
    obtain ⟨nv, hvz⟩ : ∃ nv, variationsIsZero s1.up s1.deg = some nv := by
      unfold variationsIsZero; rw [if_neg (by omega)]; exact ⟨_, rfl⟩
    rw [hvz]
    rcases nv with _ | nv
    · exact ⟨_, _, _, rfl, fun _ h2 => (hnone (fun y hy _ => hnode.pos hvz y hy) h2).elim⟩
    simp only
    obtain ⟨nb, hnb, hv⟩ := descartes_spec (tabOf s1) s1.up s1.deg s1.pwx hnode.zero hs1.deg_pos hs1.sz hs1.tab
    rw [hnb]
    simp only
    set v := varShift (reversed s1.up s1.deg) s1.deg
    by_cases hn0 : nb = 0
    · rw [if_pos hn0]
      refine ⟨_, _, _, rfl, fun _ h2 => (hnone (fun y h1 h3 h4 => ?_) h2).elim⟩
      have := hnode.card {y} (by simpa using ⟨h1, h3, h4⟩)
      rw [Finset.card_singleton] at this
      omega
    rw [if_neg hn0]
    have htop : (evalOne s1.up s1.deg).sign ≠ 0 := fun h => hnode.one (Int.sign_eq_zero_iff_zero.mp h)
    by_cases hn1 : nb = 1
    · rw [if_pos hn1]
      exact ⟨_, _, _, rfl, fun _ _ => oneCase_open c k half _ _ _ htop⟩
    rw [if_neg hn1]
    by_cases hn2 : nb = 2 ∧ (s1.up 0).sign * shalf < 0 ∧ (evalOne s1.up s1.deg).sign * shalf ≤ 0
    · rw [if_pos hn2]
      exact ⟨_, _, _, rfl, fun _ _ => ⟨⟨2 * c, k + 1, false⟩, by unfold twoCase; simp, rfl⟩⟩
    rw [if_neg hn2]
    have hv2 : 2 ≤ v := by omega
    -- the depth
    have hkK1 : k + 1 ≤ K := by
      by_contra hc
      have := hshort1 D1 dvd_rfl k (by omega) β ⟨by positivity, by
        rw [hβ, div_le_one hp]
        exact_mod_cast hck.le⟩ s1 hs1 hnode.zero hrep1
      omega
    -- if there are only real roots, two of them lie in one half
    have htwo : Full D1 → (∃ x y, β < x ∧ x < y ∧ y < m ∧ D1.eval x = 0 ∧ D1.eval y = 0) ∨
        (∃ x y, m < x ∧ x < y ∧ y < α + β ∧ D1.eval x = 0 ∧ D1.eval y = 0) := by
      intro hf
      refine two_in_half hsimple1 ha1 hm1 hb1 (hexact hf) hv2 ?_
      rintro ⟨hv2', sl, sr⟩
      apply hn2
      rw [show D1.eval β = D1.eval (α * 0 + β) by rw [mul_zero, zero_add], ← hme] at sl
      rw [show D1.eval (α + β) = D1.eval (α * 1 + β) by rw [mul_one], ← hme, mul_comm] at sr
      rw [hsh]
      refine ⟨by omega, ?_, ?_⟩
      · exact real_sign_mul_neg one_pos (by positivity) (rp_eval_zero _ _) (rp_eval_half _ _) (hrep1.sign_neg sl)
      · exact (real_sign_mul_neg one_pos (by positivity) (rp_eval_one _ _) (rp_eval_half _ _) (hrep1.sign_neg sr)).le
    have hc2 : 2 * c + 1 < 2 ^ (k + 1) := by rw [pow_succ]; omega
    obtain ⟨hvs2, hrep2⟩ := rep_left hs1 hrep1
    have hleft := ih _ (2 * c) (k + 1) D1 hvs2 hrep2 (by omega) (by rw [← hae]; exact ha1) (by rw [hma]; exact hm1)
      hsimple1 hshort1 ?_ hkK1 (by omega)
    swap
    · intro hd1 h0
      -- a linear polynomial has at most one variation
      have hf : Full D1 := by
        unfold Full
        rw [hd1]
        refine Finset.card_pos.mpr ⟨((2 * (2 * c) + 1 : ℕ) : ℝ) / 2 ^ (k + 1 + 1), ?_⟩
        rw [Multiset.mem_toFinset, mem_roots hsimple1.ne_zero]; exact h0
      have h2 := hexact hf
      have h3 := (Finset.card_filter_le D1.roots.toFinset fun y => β < y ∧ y < α + β).trans
        ((Multiset.toFinset_card_le _).trans D1.card_roots')
      omega
    obtain ⟨sl, outl, retl, hbl, hBl⟩ := hleft
    obtain ⟨DL, hL⟩ := bisect_spec fuel _ (2 * c) (k + 1) D1 sl outl retl hvs2 hrep2 (by rw [← hae]; exact ha1)
      (by rw [hma]; exact hm1) hbl
    rw [hma, ← hae] at hL hBl
    rw [hbl]
    cases retl with
    | none =>
      refine ⟨_, _, _, rfl, fun hf _ => ?_⟩
      have hno := hL.none rfl
      rcases htwo (hfull1 hf) with h2 | ⟨x, y, h1, _, _, h4, _⟩
      · obtain ⟨r, hr, he⟩ := hBl (hfull1 hf) h2
        exact ⟨r, by simp [hr], he⟩
      · exact absurd h4 (hno x h1.le)
    | some oldk =>
    simp only
    obtain ⟨hk1, hvl, hrepl⟩ := hL.some oldk rfl
    obtain ⟨g, hg1, hg2⟩ := dac_spec (tabOf sl) sl.up sl.deg sl.pwx hvl.deg_pos hvl.sz hvl.tab
    rw [hg1]
    simp only
    obtain ⟨hv3, hrep3⟩ := rep_right hvl hrepl hk1 hg2
    have hDLd : DL ∣ D1 := ⟨_, hL.fact⟩
    have hDLne : ∀ x, D1.eval x ≠ 0 → DL.eval x ≠ 0 := by
      intro x hx h0
      apply hx
      rw [hL.fact, eval_mul, h0, zero_mul]
    have hDLr : ∀ x, m < x → D1.eval x = 0 → DL.eval x = 0 := by
      intro x hx h0
      rw [hL.fact, eval_mul] at h0
      refine (mul_eq_zero.mp h0).resolve_right (exProd_eval_ne fun r hr he heq => ?_)
      have := (exact_mem hL.iso r hr he).2
      rw [← heq] at this
      exact absurd this hx.not_gt
    have hsimpleL := hsimple1.of_dvd hDLd
    have hright := ih _ (2 * c + 1) (k + 1) DL hv3 hrep3 hc2 (hDLne _ hm1) (by rw [hbm]; exact hDLne _ hb1)
      hsimpleL (hshort1.of_dvd hDLd) ?_ hkK1 (by omega)
    swap
    · intro hd1 h0
      set rm := ((2 * (2 * c + 1) + 1 : ℕ) : ℝ) / 2 ^ (k + 1 + 1) with hrm
      have hmrm : m < rm := by
        rw [hm, hrm, div_lt_div_iff₀ (by positivity) (by positivity), pow_succ _ (k + 1)]
        push_cast
        have : (0 : ℝ) < 2 ^ (k + 1) := by positivity
        nlinarith
      have huniq : ∀ x, DL.eval x = 0 → x = rm := by
        intro x hx
        by_contra hne
        have h3 : ({x, rm} : Finset ℝ) ⊆ DL.roots.toFinset := by
          intro z hz
          rw [Multiset.mem_toFinset, mem_roots hsimpleL.ne_zero]
          rcases Finset.mem_insert.mp hz with rfl | hz
          · exact hx
          · rw [Finset.mem_singleton.mp hz]; exact h0
        have h4 := (Finset.card_le_card h3).trans ((Multiset.toFinset_card_le _).trans DL.card_roots')
        rw [Finset.card_pair hne] at h4
        omega
      have hfL : Full DL := by
        unfold Full
        rw [hd1]
        refine Finset.card_pos.mpr ⟨rm, ?_⟩
        rw [Multiset.mem_toFinset, mem_roots hsimpleL.ne_zero]; exact h0
      have hf1 : Full D1 := full_exProd outl D1 hsimple1 hL.fact hfL
      rcases htwo hf1 with h2 | ⟨x, y, h1, h2, _, h4, h5⟩
      · obtain ⟨r, hr, he⟩ := hBl hf1 h2
        obtain ⟨x, hx1, hx2⟩ := open_root hL.fact hL.iso hr he
        have := huniq x hx2
        rw [this] at hx1
        exact absurd hx1.2 hmrm.not_gt
      · have e1 := huniq x (hDLr x h1 h4)
        have e2 := huniq y (hDLr y (h1.trans h2) h5)
        rw [e1, e2] at h2
        exact lt_irrefl _ h2
    obtain ⟨sr, outr, retr, hbr, hBr⟩ := hright
    rw [hbr]
    refine ⟨_, _, _, rfl, fun hf _ => ?_⟩
    have hf1 := hfull1 hf
    rcases htwo hf1 with h2 | ⟨x, y, h1, h2, h3, h4, h5⟩
    · obtain ⟨r, hr, he⟩ := hBl hf1 h2
      exact ⟨r, by simp [hr], he⟩
    · have hfL : Full DL := by
        exact full_of_exProd outl D1 hsimple1.ne_zero hL.fact hf1
      obtain ⟨r, hr, he⟩ := hBr hfL ⟨x, y, h1, h2, by rw [hbm]; exact h3, hDLr x h1 h4, hDLr y (h1.trans h2) h5⟩
      exact ⟨r, by simp [hr], he⟩

/-- More recursion depth does not change a result. -/
theorem bisect_mono (fuel : ℕ) : ∀ (s : St) (c k : ℕ) (s' : St) (out : List Raw) (ret : Option ℕ),
    bisect fuel s c k = .done s' out ret → bisect (fuel + 1) s c k = .done s' out ret := by
  induction fuel with
  | zero => intro s c k s' out ret h; simp only [bisect] at h; cases h
  | succ fuel ih =>
    intro s c k s' out ret h
    rw [bisect] at h ⊢
    revert h
    cases zeroRoot s c k with
    | fuel => intro h; exact h
    | exit => intro h; exact h
    | hang => intro h; exact h
    | done s0 out0 r0 =>
    simp only
    cases manageHalf s0 with
    | exit => intro h; exact h
    | hang => intro h; exact h
    | ok s1 half shalf =>
    simp only
    cases variationsIsZero s1.up s1.deg with
    | none => intro h; exact h
    | some nv =>
    rcases nv with _ | nv
    · intro h; exact h
    simp only
    cases descartes (tabOf s1) s1.up s1.deg s1.pwx with
    | none => intro h; exact h
    | some nb =>
    simp only
    split
    · intro h; exact h
    split
    · intro h; exact h
    split
    · intro h; exact h
    cases hl : bisect fuel { s1 with up := (rescale s1.up (-1) s1.deg).2 } (2 * c) (k + 1) with
    | fuel => intro h; cases h
    | exit => intro h; cases h
    | hang => intro h; cases h
    | done s2 out1 ret1 =>
    rw [ih _ _ _ _ _ _ hl]
    cases ret1 with
    | none => intro h; exact h
    | some oldk =>
    simp only
    cases dac (tabOf s2) s2.up s2.deg s2.pwx with
    | none => intro h; exact h
    | some g =>
    simp only
    cases hr : bisect fuel { s2 with up := if k + 1 < oldk then (rescale g ((oldk : ℤ) - (k + 1)) s2.deg).2 else g }
      (2 * c + 1) (k + 1) with
    | fuel => intro h; cases h
    | exit => intro h; cases h
    | hang => intro h; cases h
    | done s3 out2 ret2 =>
    rw [ih _ _ _ _ _ _ hr]
    intro h; exact h

theorem bisect_mono_le {fuel fuel' : ℕ} (hle : fuel ≤ fuel') {s : St} {c k : ℕ} {s' : St} {out : List Raw} {ret : Option ℕ}
    (h : bisect fuel s c k = .done s' out ret) : bisect fuel' s c k = .done s' out ret := by
  induction fuel', hle using Nat.le_induction with
  | base => exact h
  | succ n _ ih => exact bisect_mono n s c k s' out ret ih

/-- The only positive root of a linear polynomial is below half of the bound. -/
theorem linear_half {up : ℕ → ℤ} (hlead : up 1 ≠ 0) : (rp up 1).eval (2 ^ (boundRoots up 1) * (1 / 2)) ≠ 0 := by
  set b := boundRoots up 1 with hb
  have hx0 : (0 : ℝ) < 2 ^ b * (1 / 2) := by positivity
  intro h0
  by_cases hsame : ∀ i < 1, (up 1).sign = (up i).sign
  · have := boundRoots_spec hlead _ hx0 (Or.inr hsame)
    rw [← rp_eval, h0, mul_zero] at this
    exact lt_irrefl _ this
  · have hne : (up 1).sign ≠ (up 0).sign := by
      intro h
      exact hsame fun i hi => by rw [show i = 0 by omega]; exact h
    obtain ⟨hb1, hb2⟩ := bitSize_le_abs hlead
    have hb3 := abs_lt_bitSize (up 0)
    set l : ℤ := (bitSize (up 1) : ℤ) - 1 with hl
    have hfold := (fold_spec up 1 l 1 (-l)).1 0 (by omega) hne
    have hbr : b = ((List.range 1).foldl (boundStep up 1 l) (-l, true)).1 + 1 := by
      rw [hb]
      unfold boundRoots
      simp only
      rw [← hl, if_neg]
      intro h
      exact hsame ((fold_spec up 1 l 1 (-l)).2.mp h)
    have hexp := expo_le ((bitSize (up 0) : ℤ) - l) (((1 : ℕ) : ℤ) - ((0 : ℕ) : ℤ)) (by decide)
    have hble : (bitSize (up 0) : ℤ) - l ≤ b - 1 := by
      rw [hbr]
      push_cast at hexp hfold ⊢
      linarith
    -- `|up 0| < 2^(b-1) |up 1|`
    have hval : (rp up 1).eval (2 ^ b * (1 / 2)) = up 0 + up 1 * 2 ^ (b - 1) := by
      rw [rp_eval, aeval_toPoly, Finset.sum_range_succ, Finset.sum_range_one, zpow_sub₀ two_ne_zero, zpow_one]
      ring
    rw [hval] at h0
    have h1 : |(up 0 : ℝ)| = |(up 1 : ℝ)| * 2 ^ (b - 1) := by
      have : (up 0 : ℝ) = -(up 1 * 2 ^ (b - 1)) := by linarith
      rw [this, abs_neg, abs_mul, abs_of_pos (by positivity : (0 : ℝ) < 2 ^ (b - 1))]
    have h2 : |(up 0 : ℝ)| < 2 ^ (bitSize (up 0) : ℤ) := by
      rw [zpow_natCast]; exact_mod_cast hb3
    have h3 : (2 : ℝ) ^ l ≤ |(up 1 : ℝ)| := by
      rw [hl, show (bitSize (up 1) : ℤ) - 1 = ((bitSize (up 1) - 1 : ℕ) : ℤ) by omega, zpow_natCast]
      exact_mod_cast hb2
    have h4 : (2 : ℝ) ^ (bitSize (up 0) : ℤ) ≤ 2 ^ l * 2 ^ (b - 1) := by
      rw [← zpow_add₀ two_ne_zero]
      exact zpow_le_zpow_right₀ (by norm_num) (by omega)
    have h5 : (2 : ℝ) ^ l * 2 ^ (b - 1) ≤ |(up 1 : ℝ)| * 2 ^ (b - 1) :=
      mul_le_mul_of_nonneg_right h3 (by positivity)
    linarith

theorem side_ok {up : ℕ → ℤ} {deg : ℕ} (hd : 1 ≤ deg) (hlead : up deg ≠ 0) (h0 : up 0 ≠ 0) (hsimple : Simple (rp up deg)) :
    ∃ K s out ret, ∀ fuel ≥ K, side fuel up deg = .done s out ret := by
  set b := boundRoots up deg with hb
  have hapos : (0 : ℝ) < 2 ^ b := by positivity
  obtain ⟨u, hu, hue⟩ := rescale_rp up b deg
  obtain ⟨p, hp, _⟩ := degPower_spec deg hd
  have hinit : ∃ s0, initSt (rescale up b deg).2 deg = some s0 := by
    unfold initSt; rw [hp]; exact ⟨_, rfl⟩
  obtain ⟨s0, hs0⟩ := hinit
  have hl : (rescale up b deg).2 deg ≠ 0 := rescale_ne hlead
  obtain ⟨hv, hs1, hs2⟩ := initSt_spec hl hs0
  have hr0 : ∀ x, (rp s0.up s0.deg).eval x = u * (rp up deg).eval (2 ^ b * x) := by
    rw [hs1, hs2]; exact hue
  have hcomp : rp s0.up s0.deg = C u * (rp up deg).comp (C ((2 : ℝ) ^ b) * X) :=
    Polynomial.funext fun x => by rw [hr0]; simp
  have hs : Simple (rp s0.up s0.deg) := by
    intro x hx hx'
    rw [hr0, mul_eq_zero, or_iff_right hu] at hx
    refine hsimple _ hx ?_
    rw [hcomp] at hx'
    simp only [derivative_mul, derivative_C, zero_mul, zero_add, derivative_comp, derivative_X,
      mul_one, eval_mul, eval_C, eval_comp, eval_X] at hx'
    exact (mul_eq_zero.mp ((mul_eq_zero.mp hx').resolve_left hu)).resolve_left hapos.ne'
  obtain ⟨K, hK⟩ := exists_short hs
  have hnb : (rp up deg).eval (2 ^ b) ≠ 0 := by
    intro h1
    have := boundRoots_spec hlead (2 ^ b) hapos (Or.inl le_rfl)
    rw [← rp_eval, h1, mul_zero] at this
    exact lt_irrefl _ this
  have hup0 : (rp up deg).eval 0 ≠ 0 := by
    have := rp_eval_zero up deg
    rw [one_mul] at this
    rw [← this]
    exact_mod_cast h0
  have hrep : Rep s0 (rp s0.up s0.deg) (1 / 2 ^ 0) (((0 : ℕ) : ℝ) / 2 ^ 0) := ⟨1, one_ne_zero, by simp⟩
  have hok := bisect_ok K (K + 1) s0 0 0 (rp s0.up s0.deg) hv hrep (by norm_num)
    (by rw [hr0]; simpa using ⟨hu, hup0⟩) (by rw [hr0]; simpa using ⟨hu, hnb⟩) hs hK ?_ (Nat.zero_le K) (by omega)
  · obtain ⟨s', out, ret, hdone, _⟩ := hok
    refine ⟨K + 1, s', out, ret, fun fuel hf => ?_⟩
    unfold side
    rw [← hb, hs0]
    exact bisect_mono_le hf hdone
  · intro hd1
    have hdeg : deg = 1 := by
      rw [rep_natDegree hv hrep (by norm_num), hs2] at hd1
      exact hd1
    rw [hr0]
    refine mul_ne_zero hu ?_
    subst hdeg
    have := linear_half hlead
    rw [← hb] at this
    simpa using this

theorem simple_neg {P : ℝ[X]} (h : Simple P) : Simple (P.comp (-X)) := by
  intro x hx hx'
  simp only [eval_comp, eval_neg, eval_X] at hx
  refine h _ hx ?_
  simpa [derivative_comp] using hx'

theorem sideRecs_ok {up : ℕ → ℤ} {deg : ℕ} (hlead : up deg ≠ 0) (h0 : up 0 ≠ 0) (hsimple : Simple (rp up deg)) :
    ∃ K s out ret, ∀ fuel ≥ K, sideRecs fuel up deg = .done s out ret := by
  by_cases hd : 0 < deg
  · obtain ⟨K, s, out, ret, h⟩ := side_ok hd hlead h0 hsimple
    exact ⟨K, s, out, ret, fun fuel hf => by unfold sideRecs; rw [if_pos hd]; exact h fuel hf⟩
  · exact ⟨0, _, _, _, fun fuel _ => by unfold sideRecs; rw [if_neg hd]⟩

/-- `bisection_Uspensky` ends with a result if all real roots are simple. -/
theorem uspensky_ok {up0 : ℕ → ℤ} {deg0 : ℕ} (hd : 1 ≤ deg0) (hlead : up0 deg0 ≠ 0) (hsimple : Simple (rp up0 deg0)) :
    ∃ K roots nbpos nbneg, ∀ fuel ≥ K, uspensky fuel up0 deg0 = .done roots nbpos nbneg := by
  have hz : ¬ (up0 0 = 0 ∧ up0 1 = 0) := by
    rintro ⟨z0, z1⟩
    have h1 := rp_shift z0 hd
    have hx : (rp up0 deg0).eval 0 = 0 := by rw [h1]; simp
    refine hsimple 0 hx ?_
    rw [h1]
    simp only [derivative_mul, derivative_X, one_mul, eval_add, eval_mul, eval_X, zero_mul, add_zero]
    have := rp_eval_zero (fun i => up0 (1 + i)) (deg0 - 1)
    simp only [one_mul, add_zero, z1] at this
    rw [← this]; simp
  unfold uspensky
  simp only [if_neg hz]
  set deg := if up0 0 = 0 then deg0 - 1 else deg0 with hdeg
  set up : ℕ → ℤ := if up0 0 = 0 then fun i => up0 (1 + i) else up0 with hup
  have hlead' : up deg ≠ 0 := by
    simp only [hup, hdeg]
    split
    · beta_reduce; rw [show 1 + (deg0 - 1) = deg0 by omega]; exact hlead
    · exact hlead
  have h00 : up 0 ≠ 0 := by
    simp only [hup]
    split
    · rename_i h0
      exact fun h1 => hz ⟨h0, h1⟩
    · assumption
  have hdvd : rp up deg ∣ rp up0 deg0 := by
    simp only [hup, hdeg]
    split
    · rename_i h0
      rw [rp_shift h0 hd]
      exact dvd_mul_left _ _
    · exact dvd_rfl
  have hs := hsimple.of_dvd hdvd
  obtain ⟨K1, s1, o1, r1, h1⟩ := sideRecs_ok hlead' h00 hs
  have hleadn : (fun i => if i % 2 = 1 then -up i else up i) deg ≠ 0 := by
    beta_reduce
    split
    · exact neg_ne_zero.mpr hlead'
    · exact hlead'
  obtain ⟨K2, s2, o2, r2, h2⟩ := sideRecs_ok (up := fun i => if i % 2 = 1 then -up i else up i) (deg := deg) hleadn
    (by simpa using h00) (by rw [rp_neg]; exact simple_neg hs)
  refine ⟨max K1 K2, ?_, ?_, ?_, fun fuel hf => ?_⟩
  rotate_left 3
  · rw [h1 fuel (le_trans (le_max_left _ _) hf), h2 fuel (le_trans (le_max_right _ _) hf)]

end Verif.UIsolate
