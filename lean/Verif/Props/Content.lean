import Verif.Content

/-!
C41: content of integer polynomials.
-/
namespace Verif.Props
open Verif.Content

/-- C41: each polynomial with a nonzero leading coefficient is divided by an integer, so that the coefficients become
coprime and the leading coefficient positive (this determines the result); one with leading coefficient zero is left
unchanged.  `PRELOOP` is the length modulo four, as set by the import. -/
theorem C41_basis (rows : List (ℕ × List ℤ)) (hrows : ∀ r ∈ rows, r.2 ≠ [] ∧ r.1 = r.2.length % 4) :
    ∃ out, removeContent rows = some out ∧ List.Forall₂ (fun r s =>
      (∀ a l, r.2 = a :: l → a = 0 → s = r.2) ∧
      ∀ a l, r.2 = a :: l → a ≠ 0 → ∃ u b m, s = b :: m ∧ 0 < b ∧ (∀ d : ℤ, (∀ x ∈ s, d ∣ x) → d ∣ 1) ∧
        r.2 = s.map (fun x => u * x)) rows out := by
  have one : ∀ r ∈ rows, ∃ t s, strip r.1 r.2 = some t ∧ signRow r.1 t = some s ∧
      (∀ a l, r.2 = a :: l → a = 0 → s = r.2) ∧
      ∀ a l, r.2 = a :: l → a ≠ 0 → ∃ u b m, s = b :: m ∧ 0 < b ∧ (∀ d : ℤ, (∀ x ∈ s, d ∣ x) → d ∣ 1) ∧
        r.2 = s.map (fun x => u * x) := by
    intro r hr
    obtain ⟨hne, hos⟩ := hrows r hr
    obtain ⟨os, row⟩ := r
    simp only at hne hos ⊢
    subst hos
    cases row with
    | nil => exact absurd rfl hne
    | cons a l =>
      by_cases ha : a = 0
      · subst ha
        refine ⟨0 :: l, 0 :: l, by rw [strip, if_neg (by simp)], by rw [signRow, if_neg (by simp)], ?_, ?_⟩
        · intro _ _ _ _; rfl
        · intro a l' h h'; simp only [List.cons.injEq] at h; exact absurd h.1.symm h'
      · obtain ⟨t, h1, h2, s, u, b, m, h3, h4, h5, h6, h7, _⟩ := strip_sign (l := l) ha
        rw [h2] at h3
        refine ⟨t, s, h1, h3, ?_, ?_⟩
        · intro a' l' h h'; simp only [List.cons.injEq] at h; exact absurd (h.1.trans h') ha
        · intro _ _ _ _
          refine ⟨u, b, m, h4, h5, fun d hd => ?_, h7⟩
          have := dvd_gcdL hd
          rw [h6] at this
          exact this
  clear hrows
  unfold removeContent
  suffices h : ∃ ts out, rows.mapM (fun r => strip r.1 r.2) = some ts ∧ (rows.zip ts).mapM (fun r => signRow r.1.1 r.2) = some out ∧
      List.Forall₂ (fun r s => (∀ a l, r.2 = a :: l → a = 0 → s = r.2) ∧
        ∀ a l, r.2 = a :: l → a ≠ 0 → ∃ u b m, s = b :: m ∧ 0 < b ∧ (∀ d : ℤ, (∀ x ∈ s, d ∣ x) → d ∣ 1) ∧
          r.2 = s.map (fun x => u * x)) rows out by
    obtain ⟨ts, out, h1, h2, h3⟩ := h
    exact ⟨out, by rw [h1]; exact h2, h3⟩
  induction rows with
  | nil => exact ⟨[], [], rfl, rfl, .nil⟩
  | cons r rows ih =>
    obtain ⟨ts, out, h1, h2, h3⟩ := ih fun r hr => one r (List.mem_cons_of_mem _ hr)
    obtain ⟨t, s, h4, h5, h6⟩ := one r List.mem_cons_self
    refine ⟨t :: ts, s :: out, ?_, ?_, .cons h6 h3⟩
    · rw [List.mapM_cons, h4, h1]; rfl
    · rw [List.zip_cons_cons, List.mapM_cons, h5, h2]; rfl

/-- C41: the result is unique: coprime coefficients, positive leading coefficient and proportionality determine it. -/
theorem C41_unique {r s : List ℤ} {u v : ℤ} (hu : u ≠ 0) (hv : v ≠ 0) (h : r.map (fun x => u * x) = s.map fun x => v * x)
    (hr : gcdL r = 1) (hs : gcdL s = 1) (h1 : ∃ b m, r = b :: m ∧ 0 < b) (h2 : ∃ b m, s = b :: m ∧ 0 < b) : r = s := by
  have e := congrArg gcdL h
  rw [gcdL_mul, gcdL_mul, hr, hs, mul_one, mul_one] at e
  obtain ⟨b, m, rfl, hb⟩ := h1
  obtain ⟨c, n, rfl, hc⟩ := h2
  have huv : u = v := by
    rcases Int.natAbs_eq_natAbs_iff.mp e with h' | h'
    · exact h'
    · simp only [List.map_cons, List.cons.injEq] at h
      have h3 := h.1
      rw [h'] at h3
      have : v * (b + c) = 0 := by linarith
      rcases mul_eq_zero.mp this with h4 | h4
      · exact absurd h4 hv
      · omega
  subst huv
  exact List.map_injective_iff.mpr (fun x y hxy => mul_left_cancel₀ hu hxy) h

/-- C41: the content used by the univariate solver is the gcd of the coefficients; removing it and restoring it gives
the polynomial back. -/
theorem C41_univariate (g : ℤ) (upol : ℕ → ℤ) {deg : ℕ} (hd : 1 ≤ deg) :
    getContent g upol deg = gcdL ((List.range (deg + 1)).map upol) ∧
      ((∃ i ≤ deg, upol i ≠ 0) → ∃ q, divContent upol (getContent g upol deg) = some q ∧
        ∀ i ≤ deg, mulContent q (getContent g upol deg) i = upol i) := by
  have hl : (List.range (deg + 1)).map upol = upol 0 :: (List.range deg).map fun i => upol (i + 1) := by
    rw [List.range_succ_eq_map, List.map_cons, List.map_map]; rfl
  have e : getContent g upol deg = gcdL ((List.range (deg + 1)).map upol) := by
    unfold getContent
    rw [if_pos hd, hl]
    obtain ⟨h1, h2⟩ := contentLoop_spec ((List.range deg).map fun i => upol (i + 1)) (upol 0)
    cases hc : contentLoop (upol 0) ((List.range deg).map fun i => upol (i + 1)) with
    | none => rw [h1 hc]; rfl
    | some c =>
      obtain ⟨h3, h4⟩ := h2 c hc
      rw [← h4, Option.getD_some, abs_of_nonneg (h3 (by
        intro h0; rw [List.map_eq_nil_iff, List.range_eq_nil] at h0; omega))]
  refine ⟨e, fun ⟨i, hi, hne⟩ => ?_⟩
  rw [e]
  have hdvd : ∀ i ≤ deg, (gcdL ((List.range (deg + 1)).map upol) : ℤ) ∣ upol i := fun i hi =>
    gcdL_dvd (List.mem_map_of_mem (List.mem_range.mpr (by omega)))
  have h0 : (gcdL ((List.range (deg + 1)).map upol) : ℤ) ≠ 0 := by
    intro h0
    have := hdvd i hi
    rw [h0, zero_dvd_iff] at this
    exact hne this
  refine ⟨_, by unfold divContent; rw [if_neg h0], fun i hi => ?_⟩
  unfold mulContent
  exact Int.ediv_mul_cancel (hdvd i hi)

example : removeContent [(1, [-4, 6, 0, 8, -10]), (2, [0, 4]), (1, [-7]), (3, [3, 6, 5])] =
    some [[2, -3, 0, -4, 5], [0, 4], [1], [3, 6, 5]] := by decide +kernel

end Verif.Props
