import Verif.VarOrder
import Mathlib.Tactic.LinearCombination
import Mathlib.Tactic.NormNum

/-!
C39: changes of the variable order; C57: the printed linear form.
-/
namespace Verif.Props
open Verif.VarOrder

/-- A list of coordinates solves the system. -/
def IsPoint (K : Type*) [Field K] (g : Gens) (pt : List K) : Prop :=
  pt.length = g.nvars ∧ Solves K g fun k => pt.getD k 0

theorem solves_congr {K : Type*} [Field K] {g : Gens} {x y : ℕ → K} (h : ∀ k, k < g.nvars → x k = y k) :
    Solves K g x ↔ Solves K g y := by
  unfold Solves Spec.SolvesSystem
  refine forall₂_congr fun i _ => ?_
  have : ∀ off len, Spec.polyValue g.nvars (coef K g) (fun i => g.exps.getD i 0) off len x =
      Spec.polyValue g.nvars (coef K g) (fun i => g.exps.getD i 0) off len y := by
    intro off len
    unfold Spec.polyValue
    refine Finset.sum_congr rfl fun j _ => ?_
    congr 1
    exact Finset.prod_congr rfl fun k hk => by rw [h k (Finset.mem_range.mp hk)]
  rw [this]

/-- C39: a change of the variable order followed by its undoing restores the names and the exponents, nothing but the counter
differs. -/
theorem C39_undo {g : Gens} (hg : WF g) (hl : g.lfbc = 0) (hc : g.cvo = -1) (hn : 2 ≤ g.nvars) :
    (change g).2 = true ∧ (undo (change g).1).1 = { g with cvo := 1 } := by
  have h1 : ¬ ((0 : ℤ) = (g.nvars : ℤ) - 1) := by omega
  have hch : change g = ({ swapVars 0 g with cvo := ((0 : ℕ) : ℤ) }, true) := by
    unfold change; rw [undo_same hc hl]; simp [h1, hc]; rfl
  rw [hch]
  refine ⟨rfl, ?_⟩
  rw [undo_swapped hg hl (c := 0) (by omega)]; rfl

/-- C39: the exchange keeps names and meaning together: with values given to the variables by name, every polynomial has the
same value before and after. -/
theorem C39_names (K : Type*) [Field K] {g : Gens} (hg : WF g) {c : ℕ} (hc : c < g.nvars) (ρ : String → K) :
    Solves K (swapVars c g) (fun k => ρ ((swapVars c g).vnames.getD k "")) ↔ Solves K g (fun k => ρ (g.vnames.getD k "")) := by
  rw [solves_swapVars K hg hc]
  refine solves_congr fun k hk => ?_
  have hn := hg.names
  have hp := hg.pos
  unfold swapVars
  simp only [List.getD_eq_getElem?_getD]
  rw [swapAt_get (by omega) (by omega), Equiv.swap_apply_self]

/-- C39: after any sequence of restarts, the points returned are exactly the solutions of the input system, in the order of
the variables of the input, and each of them comes from exactly one solution of the system that was solved. -/
theorem C39_points (K : Type*) [Field K] {g0 g : Gens} [CharP K g0.fc] (h0 : Start g0) (handling : ℕ) (rs : List Result)
    (hd : ∀ d, .generic d ∈ rs → Accepted g0.fc (g0.nvars + 1) d) (hrun : run handling g0 rs = some g) :
    (∀ pt, IsPoint K g pt → IsPoint K g0 (restore g pt)) ∧
    (∀ q, IsPoint K g0 q → ∃! pt, IsPoint K g pt ∧ restore g pt = q) := by
  obtain ⟨hi, _⟩ := run_inv h0 rs hd g hrun
  have hwf := h0.wf
  have hn := hwf.pos
  cases hi with
  | same hg =>
    subst hg
    have hr : ∀ pt : List K, restore g pt = pt := by
      intro pt; unfold restore; rw [if_neg (by rw [h0.lfbc]; omega), if_neg (by rw [h0.cvo]; simp)]
    exact ⟨fun pt h => by rw [hr]; exact h, fun q h => ⟨q, ⟨h, hr q⟩, fun pt hp => by rw [← hp.2, hr]⟩⟩
  | swapped c hc hg =>
    have hnv : g.nvars = g0.nvars := by rw [hg]; rfl
    have hr : ∀ pt : List K, restore g pt = swapAt pt (g0.nvars - 1) c := by
      intro pt; subst hg; unfold restore
      rw [if_neg (by show ¬ 0 < g0.lfbc; rw [h0.lfbc]; omega), if_pos]
      · rfl
      · refine ⟨by simp only; omega, ?_⟩
        show (c : ℤ) ≠ (g0.nvars : ℤ) - 1
        omega
    have hsol : ∀ x : ℕ → K, Solves K g x ↔ Solves K g0 (fun k => x (Equiv.swap (g0.nvars - 1) c k)) := by
      intro x
      rw [← solves_swapVars K hwf (show c < g0.nvars by omega), hg]; rfl
    have hget : ∀ (pt : List K) (k : ℕ), pt.length = g0.nvars →
        (swapAt pt (g0.nvars - 1) c).getD k 0 = pt.getD (Equiv.swap (g0.nvars - 1) c k) 0 := by
      intro pt k hl
      rw [List.getD_eq_getElem?_getD, swapAt_get (by omega) (by omega), List.getD_eq_getElem?_getD]
    have hinv : ∀ pt : List K, pt.length = g0.nvars → swapAt (swapAt pt (g0.nvars - 1) c) (g0.nvars - 1) c = pt := by
      intro pt hl
      apply List.ext_getElem?
      intro i
      rw [swapAt_get (by rw [swapAt_length]; omega) (by rw [swapAt_length]; omega), swapAt_get (by omega) (by omega),
        Equiv.swap_apply_self]
    refine ⟨fun pt h => ?_, fun q h => ⟨swapAt q (g0.nvars - 1) c, ⟨⟨?_, ?_⟩, ?_⟩, ?_⟩⟩
    · have hl : pt.length = g0.nvars := by rw [h.1, hnv]
      rw [hr]
      refine ⟨by rw [swapAt_length, hl], ?_⟩
      have := (hsol _).mp h.2
      exact (solves_congr fun k _ => hget pt k hl).mpr this
    · rw [swapAt_length, h.1, hnv]
    · rw [hsol]
      refine (solves_congr fun k _ => ?_).mpr h.2
      rw [hget q _ h.1, Equiv.swap_apply_self]
    · rw [hr, hinv q h.1]
    · rintro pt ⟨hp1, hp2⟩
      rw [hr] at hp2
      rw [← hp2, hinv pt (by rw [hp1.1, hnv])]
  | form v hl hv hg _ =>
    have hr : ∀ pt : List K, restore g pt = pt.take g0.nvars := by
      intro pt; unfold restore; rw [if_pos hl, hg.nvars, Nat.add_sub_cancel]
    have hvn : (v.getD g0.nvars 0 : K) ≠ 0 := fun hz => hv ((CharP.intCast_eq_zero_iff K g0.fc _).mp hz)
    have htake : ∀ (pt : List K) (k : ℕ), k < g0.nvars → (pt.take g0.nvars).getD k 0 = pt.getD k 0 := by
      intro pt k hk
      rw [List.getD_eq_getElem?_getD, List.getElem?_take, if_pos hk, List.getD_eq_getElem?_getD]
    refine ⟨fun pt h => ?_, fun q h => ?_⟩
    · obtain ⟨h1, h2⟩ := h
      rw [hg.nvars] at h1
      rw [hr]
      refine ⟨by rw [List.length_take]; omega, ?_⟩
      exact (solves_congr fun k hk => htake pt k hk).mpr ((hg.solves hwf _).mp h2).1
    · obtain ⟨h1, h2⟩ := h
      have hadd : ∀ a : K, (∑ k ∈ Finset.range (g0.nvars + 1), (v.getD k 0 : K) * (q ++ [a]).getD k 0) =
          (∑ k ∈ Finset.range g0.nvars, (v.getD k 0 : K) * q.getD k 0) + (v.getD g0.nvars 0 : K) * a := by
        intro a
        rw [Finset.sum_range_succ, getD_right (by omega), h1, Nat.sub_self, List.getD_cons_zero]
        congr 1
        exact Finset.sum_congr rfl fun k hk => by rw [getD_left (by rw [h1]; exact Finset.mem_range.mp hk)]
      have hso : ∀ a : K, Solves K g0 fun k => (q ++ [a]).getD k 0 := fun a =>
        (solves_congr fun k hk => by rw [getD_left (by omega)]).mpr h2
      refine ⟨q ++ [-(∑ k ∈ Finset.range g0.nvars, (v.getD k 0 : K) * q.getD k 0) / (v.getD g0.nvars 0 : K)],
        ⟨⟨by simp [hg.nvars, h1], ?_⟩, ?_⟩, ?_⟩
      · rw [hg.solves hwf, hadd]
        exact ⟨hso _, by rw [mul_div_cancel₀ _ hvn]; ring⟩
      · rw [hr, List.take_left' h1]
      · rintro pt ⟨⟨hp1, hp2⟩, hp3⟩
        rw [hr] at hp3
        rw [hg.nvars] at hp1
        obtain ⟨b, hb⟩ : ∃ b, pt = q ++ [b] := by
          refine ⟨pt[g0.nvars]'(by omega), ?_⟩
          conv_lhs => rw [← List.take_append_drop g0.nvars pt]
          rw [hp3, List.drop_eq_getElem_cons (by omega), List.drop_of_length_le (by omega)]
        subst hb
        have h3 := ((hg.solves hwf _).mp hp2).2
        rw [hadd] at h3
        congr 2
        rw [eq_div_iff hvn]
        linear_combination h3

/-- C39: the names in the states between the restarts: those of the input with one exchange, or those of the input followed by
the name of the new variable. -/
theorem C39_names_run {g0 g : Gens} (h0 : Start g0) (handling : ℕ) (rs : List Result)
    (hd : ∀ d, .generic d ∈ rs → Accepted g0.fc (g0.nvars + 1) d) (hrun : run handling g0 rs = some g) :
    (g.lfbc = 0 → restore g g.vnames = g0.vnames) ∧ (0 < g.lfbc → g.vnames = g0.vnames ++ ["A"]) := by
  obtain ⟨hi, _⟩ := run_inv h0 rs hd g hrun
  have hn := h0.wf.pos
  have hnm := h0.wf.names
  cases hi with
  | same hg =>
    subst hg
    refine ⟨fun _ => ?_, fun h => absurd h (by rw [h0.lfbc]; omega)⟩
    unfold restore; rw [if_neg (by rw [h0.lfbc]; omega), if_neg (by rw [h0.cvo]; simp)]
  | swapped c hc hg =>
    subst hg
    refine ⟨fun _ => ?_, fun h => absurd h (by show ¬ 0 < g0.lfbc; rw [h0.lfbc]; omega)⟩
    unfold restore
    rw [if_neg (by show ¬ 0 < g0.lfbc; rw [h0.lfbc]; omega), if_pos]
    · show swapAt (swapAt g0.vnames (g0.nvars - 1) c) (g0.nvars - 1) c = g0.vnames
      apply List.ext_getElem?
      intro i
      rw [swapAt_get (by rw [swapAt_length]; omega) (by rw [swapAt_length]; omega), swapAt_get (by omega) (by omega),
        Equiv.swap_apply_self]
    · refine ⟨by simp only; omega, ?_⟩
      show (c : ℤ) ≠ (g0.nvars : ℤ) - 1
      omega
  | form v hl hv hg _ => exact ⟨fun h => absurd h (by omega), fun _ => hg.names⟩

/-- The system `x + y = 3, x y = 2` over the rationals. -/
def sample : Gens where
  nvars := 2
  fc := 0
  vnames := ["x", "y"]
  lens := [3, 2]
  exps := [1, 0, 0, 1, 0, 0, 1, 1, 0, 0]
  mpz := [1, 1, 1, 1, -3, 1, 1, 1, -2, 1]

theorem sample_start : Start sample :=
  ⟨⟨by decide, by decide, by decide, by decide, by decide⟩, by decide, by decide, by decide, by decide⟩

/-- The first failure leads to another order, the second one to a linear form with a new variable. -/
example : (run 2 sample [.failed]).map (·.vnames) = some ["y", "x"] ∧
    (run 2 sample [.failed, .failed]).map (fun g => (g.vnames, g.lens, g.exps.drop 15, g.mpz.drop 10)) =
      some (["x", "y", "A"], [3, 2, 3], [1, 0, 0, 0, 1, 0, 0, 0, 1], [1, 1, 1, 1, 1, 1]) := by decide +kernel

example : IsPoint ℚ sample [1, 2] := by
  refine ⟨rfl, ?_⟩
  intro i hi
  have : i = 0 ∨ i = 1 := by have : i < 2 := hi; omega
  rcases this with rfl | rfl
  all_goals
    norm_num [Spec.polyValue, sample, coef, Finset.sum_range_succ, Finset.prod_range_succ]

/-! ### The printed linear form -/

/-- C57 (partial): if no random form was chosen, or if the last restart chose one, the printed form is, up to a common
nonzero factor, the one that was added to the system: it vanishes on all solutions of the system that was solved, and its last
coefficient is not zero. Missing: the form is wrong after a failure that follows a random choice (`C57_stale_form`). -/
theorem C57_form_partial (K : Type*) [Field K] {g0 g : Gens} [CharP K g0.fc] (h0 : Start g0) (handling : ℕ) (rs : List Result)
    (hd : ∀ d, .generic d ∈ rs → Accepted g0.fc (g0.nvars + 1) d) (hrun : run handling g0 rs = some g)
    (hlast : (∀ d, .generic d ∉ rs) ∨ ∃ rs' d, rs = rs' ++ [.generic d]) :
    ∃ nums den, printedForm g = some (nums, den) ∧ 0 < den ∧ nums.length = g.nvars ∧
      (g.lfbc = 0 → nums = List.replicate (g.nvars - 1) 0 ++ [1]) ∧
      (0 < g.lfbc → (nums.getD (g.nvars - 1) 0 : K) ≠ 0 ∧
        ∀ x : ℕ → K, Solves K g x ↔ Solves K g0 x ∧ ∑ k ∈ Finset.range g.nvars, (nums.getD k 0 : K) * x k = 0) := by
  obtain ⟨hi, h1, h2⟩ := run_inv h0 rs hd g hrun
  have hn := h0.wf.pos
  have plain : ∀ g' : Gens, g'.nvars = g0.nvars → g'.lfbc = 0 → g'.rand = false →
      ∃ nums den, printedForm g' = some (nums, den) ∧ 0 < den ∧ nums.length = g'.nvars ∧
      (g'.lfbc = 0 → nums = List.replicate (g'.nvars - 1) 0 ++ [1]) ∧
      (0 < g'.lfbc → (nums.getD (g'.nvars - 1) 0 : K) ≠ 0 ∧
        ∀ x : ℕ → K, Solves K g' x ↔ Solves K g0 x ∧ ∑ k ∈ Finset.range g'.nvars, (nums.getD k 0 : K) * x k = 0) := by
    intro g' e1 e2 e3
    refine ⟨List.replicate (g'.nvars - 1) 0 ++ [1], 1, ?_, by decide, by simp; omega, fun _ => rfl, fun h => by omega⟩
    unfold printedForm
    rw [e3, e2]; simp
  have fin : ∀ v, Ext g0 g v → Printed g0 g v → 0 < g.lfbc → ¬ (g0.fc : ℤ) ∣ v.getD g0.nvars 0 →
      ∃ nums den, printedForm g = some (nums, den) ∧ 0 < den ∧ nums.length = g.nvars ∧
      (g.lfbc = 0 → nums = List.replicate (g.nvars - 1) 0 ++ [1]) ∧
      (0 < g.lfbc → (nums.getD (g.nvars - 1) 0 : K) ≠ 0 ∧
        ∀ x : ℕ → K, Solves K g x ↔ Solves K g0 x ∧ ∑ k ∈ Finset.range g.nvars, (nums.getD k 0 : K) * x k = 0) := by
    intro v hg ⟨nums, den, p1, p2, p3, p4⟩ hl hv
    have heq : ∀ k, k < g0.nvars + 1 → (nums.getD k 0 : K) = (v.getD k 0 : K) := by
      intro k hk
      have := (CharP.intCast_eq_zero_iff K g0.fc _).mpr (p4 k hk)
      rw [Int.cast_sub, sub_eq_zero] at this
      exact this
    refine ⟨nums, den, p1, p2, by rw [p3, hg.nvars], fun h => by omega, fun _ => ⟨?_, fun x => ?_⟩⟩
    · rw [hg.nvars, Nat.add_sub_cancel, heq _ (Nat.lt_succ_self _)]
      exact fun hz => hv ((CharP.intCast_eq_zero_iff K g0.fc _).mp hz)
    · rw [hg.solves h0.wf, hg.nvars]
      refine and_congr_right fun _ => ?_
      have hs : ∑ k ∈ Finset.range (g0.nvars + 1), (nums.getD k 0 : K) * x k =
          ∑ k ∈ Finset.range (g0.nvars + 1), (v.getD k 0 : K) * x k :=
        Finset.sum_congr rfl fun k hk => by rw [heq k (Finset.mem_range.mp hk)]
      rw [hs]
  cases hi with
  | same hg => subst hg; exact plain g rfl h0.lfbc h0.rand
  | swapped c hc hg => subst hg; exact plain _ rfl h0.lfbc h0.rand
  | form v hl hv hg hp =>
    rcases hlast with h3 | ⟨rs', d, h3⟩
    · exact fin v hg (hp (h1 h3)) hl hv
    · obtain ⟨_, w, hw, hpw⟩ := h2 rs' d h3
      refine fin v hg ?_ hl hv
      obtain ⟨nums, den, p1, p2, p3, p4⟩ := hpw
      have hvw : ∀ k, k < g0.nvars + 1 → w.getD k 0 = v.getD k 0 := by
        intro k hk
        by_cases hf : 0 < g0.fc
        · have := (hw.cfs hf).symm.trans (hg.cfs hf)
          rw [List.append_cancel_left_eq] at this; rw [this]
        · have hz : g0.fc = 0 := by omega
          have := (hw.mpz hz).symm.trans (hg.mpz hz)
          rw [List.append_cancel_left_eq] at this
          have e1 := (flatMap_pair_get w k).1
          rw [this, (flatMap_pair_get v k).1] at e1
          rw [List.getD_eq_getElem?_getD, ← e1, List.getD_eq_getElem?_getD]
      exact ⟨nums, den, p1, p2, p3, fun k hk => by rw [← hvw k hk]; exact p4 k hk⟩

/-- C57 is false: after a random choice and a failure the program uses another linear form, but prints the random one. The
system `x = 1` with the draws `2, 3`: the system that is solved has the solution `(1, -1)`, the printed form is `2 x + 3 A`. -/
theorem C57_stale_form : ∃ (g0 g : Gens) (rs : List Result) (nums : List ℤ) (den : ℤ) (x : ℕ → ℚ), Start g0 ∧
    (∀ d, .generic d ∈ rs → Accepted g0.fc (g0.nvars + 1) d) ∧ run 2 g0 rs = some g ∧ printedForm g = some (nums, den) ∧
    Solves ℚ g x ∧ ∑ k ∈ Finset.range g.nvars, (nums.getD k 0 : ℚ) * x k ≠ 0 := by
  refine ⟨{ nvars := 1, fc := 0, vnames := ["x"], lens := [2], exps := [1, 0], mpz := [1, 1, -1, 1] },
    { nvars := 2, fc := 0, lfbc := 2, rand := true, rform := [2, 3], vnames := ["x", "A"], lens := [2, 2],
      exps := [1, 0, 0, 0, 1, 0, 0, 1], mpz := [1, 1, -1, 1, 1, 1, 1, 1] }, [.generic [2, 3], .failed], [2, 3], 8,
    fun k => if k = 0 then 1 else -1,
    ⟨⟨by decide, by decide, by decide, by decide, by decide⟩, by decide, by decide, by decide, by decide⟩, ?_, by decide +kernel,
    by decide +kernel, ?_, ?_⟩
  · intro d hd i hi
    simp at hd
    subst hd
    have : i = 0 ∨ i = 1 := by have : i < 2 := hi; omega
    rcases this with rfl | rfl <;> decide
  · intro i hi
    have : i = 0 ∨ i = 1 := by have : i < 2 := hi; omega
    rcases this with rfl | rfl
    all_goals norm_num [Spec.polyValue, coef, Finset.sum_range_succ, Finset.prod_range_succ]
  · norm_num [Finset.sum_range_succ]

/-- C57: the new variable is always called `A`, also if the input has a variable of this name; two variables are then printed
with the same name. -/
theorem C57_name_clash : ∃ (g0 g : Gens) (rs : List Result), Start g0 ∧ g0.vnames.Nodup ∧ run 2 g0 rs = some g ∧
    ¬ g.vnames.Nodup := by
  refine ⟨{ nvars := 1, fc := 0, vnames := ["A"], lens := [2], exps := [1, 0], mpz := [1, 1, -1, 1] },
    { nvars := 2, fc := 0, cvo := 0, lfbc := 1, vnames := ["A", "A"], lens := [2, 2],
      exps := [1, 0, 0, 0, 1, 0, 0, 1], mpz := [1, 1, -1, 1, 1, 1, 1, 1] }, [.failed],
    ⟨⟨by decide, by decide, by decide, by decide, by decide⟩, by decide, by decide, by decide, by decide⟩, by decide,
    by decide +kernel, by decide⟩

end Verif.Props
