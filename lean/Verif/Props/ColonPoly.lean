import Verif.ColonPoly
import Verif.Props.ColonVec

/-!
C94: the dense rows from elements of the basis in `msolve -C`.
-/
namespace Verif.Props
open Verif.Orders Verif.Spec
open Verif.ColonVec (larger)
open Verif.ColonPoly (skip rowLoop copyPoly)
open Verif.Props.ColonVec (cmp_cases rows_of)

variable {n : ℕ}

namespace ColonPoly

theorem skip_spec {r : List ((Fin n → ℕ) × ℕ)} (row : Fin n → ℕ) : ∀ (fuel k : ℕ), k < r.length → r.length < fuel + k →
    ∃ k', skip r row fuel k = some k' ∧ k ≤ k' ∧ k' < r.length ∧ (∀ i, k ≤ i → i < k' → larger (r.getD i 0).1 row < 0) ∧
      (¬ larger (r.getD k' 0).1 row < 0 ∨ r.length ≤ k' + 2) := by
  intro fuel
  induction fuel with
  | zero => intro k hk hf; omega
  | succ fuel ih =>
    intro k hk hf
    rw [skip, if_pos hk]
    by_cases hc : larger (r.getD k 0).1 row < 0 ∧ (k : ℤ) < (r.length : ℤ) - 2
    · rw [if_pos hc]
      obtain ⟨k', g1, g2, g3, g4, g5⟩ := ih (k + 1) (by omega) (by omega)
      refine ⟨k', g1, by omega, g3, fun i hi hi' => ?_, g5⟩
      rcases Nat.eq_or_lt_of_le hi with rfl | hlt
      · exact hc.1
      · exact g4 i hlt hi'
    · rw [if_neg hc]
      refine ⟨k, rfl, le_rfl, hk, fun i hi hi' => by omega, ?_⟩
      by_contra hcon
      push Not at hcon
      exact hc ⟨hcon.1, by omega⟩

theorem rowLoop_spec {p L : ℕ} {r : List ((Fin n → ℕ) × ℕ)} (hL : L < r.length) (hs : ∀ i j, i < j → j ≤ L → Drl (r.getD i 0).1 (r.getD j 0).1)
    (hprev : ∀ i, L < i → i < r.length → Drl (r.getD i 0).1 (r.getD L 0).1) :
    ∀ (rows : List (Fin n → ℕ)) (k : ℕ), rows.Pairwise Drl → (r.getD L 0).1 ∉ rows → (∀ i, i < r.length → ∀ row ∈ rows, larger (r.getD i 0).1 row = 0 → (r.getD i 0).1 = row) →
    (∀ i < k, i < r.length → ∀ row ∈ rows, Drl (r.getD i 0).1 row) →
    ∃ v, rowLoop p r k rows = some v ∧
      List.Forall₂ (fun m c => (∀ i < L, (r.getD i 0).1 = m → c = p - (r.getD i 0).2) ∧ ((∀ i < L, (r.getD i 0).1 ≠ m) → c = 0)) rows v := by
  have tr := @drl_admissible n |>.trans
  have hzero : ∀ row, (∀ i, i < L → (r.getD i 0).1 ≠ row) → (∀ i < L, (r.getD i 0).1 = row → 0 = p - (r.getD i 0).2) ∧ ((∀ i < L, (r.getD i 0).1 ≠ row) → 0 = 0) :=
    fun row h => ⟨fun i hi he => absurd he (h i hi), fun _ => rfl⟩
  intro rows
  induction rows with
  | nil => intro k _ _ _ _; exact ⟨[], rfl, .nil⟩
  | cons row rows ih =>
    intro k hr hlm hinj hk
    have hr' := List.pairwise_cons.mp hr
    have hlm' : (r.getD L 0).1 ∉ rows := fun h => hlm (List.mem_cons_of_mem _ h)
    have hinj' : ∀ i, i < r.length → ∀ row ∈ rows, larger (r.getD i 0).1 row = 0 → (r.getD i 0).1 = row := fun i hi x hx => hinj i hi x (List.mem_cons_of_mem _ hx)
    rw [rowLoop]
    by_cases hkl : k < r.length
    · rw [if_pos hkl]
      obtain ⟨k', g1, g2, g3, g4, g5⟩ := skip_spec row (r.length + 1) k hkl (by omega)
      rw [g1]
      simp only
      have hbelow : ∀ i, i < k' → Drl (r.getD i 0).1 row := by
        intro i hi
        rcases Nat.lt_or_ge i k with h | h
        · exact hk i h (by omega) row List.mem_cons_self
        · have := g4 i h hi
          rcases cmp_cases (r.getD i 0).1 row with ⟨h0, -⟩ | ⟨h0, -⟩ | ⟨-, h0⟩
          · omega
          · omega
          · exact h0
      have hrest : ∀ i, i < k' → ∀ x ∈ rows, Drl (r.getD i 0).1 x := fun i hi x hx => tr _ _ _ (hbelow i hi) (hr'.1 x hx)
      have hpast : L < k' → Drl (r.getD k' 0).1 row := fun h => tr _ _ _ (hprev k' h g3) (hbelow L h)
      rcases cmp_cases (r.getD k' 0).1 row with ⟨h0, -⟩ | ⟨h0, hd⟩ | ⟨h0, hd⟩
      · rw [if_pos h0]
        have he := hinj k' g3 row List.mem_cons_self h0
        have hkL : k' < L := by
          rcases lt_trichotomy k' L with h | h | h
          · exact h
          · exact absurd (by rw [← h, he]; exact List.mem_cons_self) hlm
          · exact absurd (he ▸ hpast h) (drl_admissible.irrefl _)
        obtain ⟨v, l1, l2⟩ := ih (k' + 1) hr'.2 hlm' hinj' (fun i hi _ x hx => by
          rcases Nat.lt_succ_iff_lt_or_eq.mp hi with h | rfl
          · exact hrest i h x hx
          · rw [he]; exact hr'.1 x hx)
        refine ⟨_, by rw [l1]; rfl, .cons ⟨fun i hi hte => ?_, fun hno => absurd he (hno k' hkL)⟩ l2⟩
        rcases Nat.lt_trichotomy i k' with h | rfl | h
        · exact absurd (hte ▸ hbelow i h) (drl_admissible.irrefl _)
        · rfl
        · have := hs k' i h hi.le
          rw [he, hte] at this
          exact absurd this (drl_admissible.irrefl _)
      · rw [if_neg (by omega)]
        obtain ⟨v, l1, l2⟩ := ih k' hr'.2 hlm' hinj' (fun i hi _ x hx => hrest i hi x hx)
        refine ⟨_, by rw [l1]; rfl, .cons (hzero _ fun i hi he => ?_) l2⟩
        rcases Nat.lt_trichotomy i k' with h | rfl | h
        · exact drl_admissible.irrefl _ (he ▸ hbelow i h)
        · exact drl_admissible.irrefl _ (he ▸ hd)
        · exact drl_admissible.irrefl _ (tr _ _ _ hd (he ▸ hs k' i h hi.le))
      · rw [if_neg (by omega)]
        have hk2 : r.length ≤ k' + 2 := by
          rcases g5 with h | h
          · omega
          · exact h
        obtain ⟨v, l1, l2⟩ := ih k' hr'.2 hlm' hinj' (fun i hi _ x hx => hrest i hi x hx)
        refine ⟨_, by rw [l1]; rfl, .cons (hzero _ fun i hi he => ?_) l2⟩
        rcases Nat.lt_trichotomy i k' with h | rfl | h
        · exact drl_admissible.irrefl _ (he ▸ hbelow i h)
        · exact drl_admissible.irrefl _ (he ▸ hd)
        · omega
    · rw [if_neg hkl]
      obtain ⟨v, l1, l2⟩ := ih k hr'.2 hlm' hinj' (fun i hi hl x hx => hk i hi hl x (List.mem_cons_of_mem _ hx))
      refine ⟨_, by rw [l1]; rfl, .cons (hzero _ fun i hi he => ?_) l2⟩
      exact drl_admissible.irrefl _ (he ▸ hk i (by omega) (by omega) row List.mem_cons_self)

end ColonPoly

open Verif.Props.ColonPoly

/-- C94: the row of the matrix for the polynomial with the leading term `lt` and the further terms `tail` has the negatives of the coefficients of `tail` as entries, also if the loop runs into the
terms `before` of the smaller elements of the basis, if the leading monomial is no row and no two different monomials are taken to be equal.

Partial: without the last condition the claim is false, see `C94_own_leading`. -/
theorem C94_row_partial {p : ℕ} {before tail after : List ((Fin n → ℕ) × ℕ)} {lt : (Fin n → ℕ) × ℕ} {rows : List (Fin n → ℕ)} (hs : (lt :: tail).Pairwise fun a b => Drl b.1 a.1)
    (hb : ∀ t ∈ before, Drl t.1 lt.1) (hr : rows.Pairwise Drl) (hlm : lt.1 ∉ rows)
    (hinj : ∀ t ∈ before ++ lt :: tail, ∀ row ∈ rows, ∑ i, t.1 i = ∑ i, row i → (∀ i : Fin n, 2 ≤ i.val → t.1 i = row i) → t.1 = row) :
    ∃ v, copyPoly p (before ++ lt :: tail ++ after) before.length (tail.length + 1) rows = some v ∧
      List.Forall₂ (fun m c => (∀ t ∈ tail, t.1 = m → c = p - t.2) ∧ ((∀ t ∈ tail, t.1 ≠ m) → c = 0)) rows v := by
  have htake : (before ++ lt :: tail ++ after).take (before.length + (tail.length + 1)) = before ++ lt :: tail := by
    have e : before.length + (tail.length + 1) = (before ++ lt :: tail).length := by simp
    rw [e, List.take_left]
  have hrev : (before ++ lt :: tail).reverse = tail.reverse ++ lt :: before.reverse := by simp
  set r := tail.reverse ++ lt :: before.reverse with hrdef
  have hlen : r.length = tail.length + 1 + before.length := by simp [hrdef]; omega
  have hlow : ∀ i, i < tail.length → r.getD i 0 = tail.reverse.getD i 0 := fun i hi => by
    rw [hrdef, List.getD_append _ _ _ _ (by simpa using hi)]
  have hmid : r.getD tail.length 0 = lt := by
    rw [hrdef, List.getD_append_right _ _ _ _ (by simp)]
    simp
  have hhigh : ∀ i, tail.length < i → i < r.length → r.getD i 0 ∈ before := fun i hi hi' => by
    obtain ⟨j, rfl⟩ := Nat.exists_eq_add_of_lt hi
    rw [hrdef, List.getD_append_right _ _ _ _ (by simp; omega)]
    have e : tail.length + j + 1 - tail.reverse.length = j + 1 := by simp; omega
    rw [e, List.getD_cons_succ, List.getD_eq_getElem _ _ (by simp; omega), ← List.mem_reverse]
    exact List.getElem_mem _
  have hin : ∀ i, i < r.length → r.getD i 0 ∈ before ++ lt :: tail := fun i hi => by
    rw [← List.mem_reverse, hrev, List.getD_eq_getElem _ _ hi]
    exact List.getElem_mem hi
  have hsr : (tail.reverse ++ [lt]).Pairwise fun a b => Drl a.1 b.1 := by
    have := List.pairwise_reverse.mpr hs
    simpa using this
  obtain ⟨v, h1, h2⟩ := rowLoop_spec (p := p) (L := tail.length) (r := r) (by omega) (fun i j hij hj => by
      have e : ∀ i, i ≤ tail.length → r.getD i 0 = (tail.reverse ++ [lt]).getD i 0 := fun i hi => by
        rcases Nat.lt_or_eq_of_le hi with h | rfl
        · rw [hlow i h, List.getD_append _ _ _ _ (by simpa using h)]
        · rw [hmid, List.getD_append_right _ _ _ _ (by simp)]
          simp
      rw [e i (by omega), e j hj, List.getD_eq_getElem _ _ (by simp; omega), List.getD_eq_getElem _ _ (by simp; omega)]
      exact List.pairwise_iff_getElem.mp hsr _ _ _ _ hij)
    (fun i hi hi' => by rw [hmid]; exact hb _ (hhigh i hi hi')) rows 0 hr (by rw [hmid]; exact hlm)
    (fun i hi row hrow h0 => hinj _ (hin i hi) row hrow ((C92_compare _ _).2.2.mp h0).1 ((C92_compare _ _).2.2.mp h0).2) (fun i hi => by omega)
  refine ⟨v, by rw [copyPoly, htake, hrev]; exact h1, h2.imp fun m c h => ⟨fun t ht he => ?_, fun hno => h.2 fun i hi => ?_⟩⟩
  · obtain ⟨i, hi, hti⟩ := List.getElem_of_mem (List.mem_reverse.mpr ht)
    have hi' : i < tail.length := by simpa using hi
    have e : r.getD i 0 = t := by rw [hlow i hi', List.getD_eq_getElem _ _ hi, hti]
    have := h.1 i hi' (by rw [e]; exact he)
    rw [e] at this
    exact this
  · rw [hlow i hi, List.getD_eq_getElem _ _ (by simpa using hi)]
    exact hno _ (List.mem_reverse.mp (List.getElem_mem _))

/-- C94 (finding): for `y^2-1, x^3` and the rows of `msolve -C`, the row for `y*y = 1` has a second entry: the leading monomial `y^2` is taken to be equal to the row `x*y`, so that the matrix
maps `y` to `1-x*y` (modulo 7). -/
theorem C94_own_leading : Verif.Colon.noZero [![0, 2], ![3, 0]] (Verif.Colon.maxDeg 1 [![0, 2], ![3, 0]]) = .rows [![0, 0], ![0, 1], ![1, 0], ![1, 1], ![2, 0], ![2, 1]] ∧
    copyPoly 7 [((![0, 2] : Fin 2 → ℕ), 1), (![0, 0], 6), (![3, 0], 1)] 0 2 [![0, 0], ![0, 1], ![1, 0], ![1, 1], ![2, 0], ![2, 1]] = some [1, 0, 0, 6, 0, 0] :=
  ⟨rows_of (by decide +kernel), by decide +kernel⟩

/-- C94 (finding): the same with three variables: for `y*z-2, z^3` the leading monomial `y*z` is taken to be equal to the row `x*z`. -/
theorem C94_own_leading_three : copyPoly 7 [((![0, 1, 1] : Fin 3 → ℕ), 1), (![0, 0, 0], 5), (![0, 0, 3], 1)] 0 2 [![0, 0, 0], ![0, 0, 1], ![0, 1, 0], ![1, 0, 0], ![0, 0, 2], ![1, 0, 1]] =
    some [2, 0, 0, 0, 0, 6] := by decide +kernel

/-- The hypotheses of `C94_row_partial` are met, with terms before: `z^2+3*z` after `y+2` (rows `1, z`). -/
example : copyPoly 7 ([((![0, 1, 0] : Fin 3 → ℕ), 1), (![0, 0, 0], 2)] ++ (![0, 0, 2], 1) :: [(![0, 0, 1], 3)] ++ []) 2 2 [![0, 0, 0], ![0, 0, 1]] = some [0, 4] ∧
    ∃ v, copyPoly 7 ([((![0, 1, 0] : Fin 3 → ℕ), 1), (![0, 0, 0], 2)] ++ (![0, 0, 2], 1) :: [(![0, 0, 1], 3)] ++ []) [((![0, 1, 0] : Fin 3 → ℕ), 1), (![0, 0, 0], 2)].length
      ([((![0, 0, 1] : Fin 3 → ℕ), 3)].length + 1) [![0, 0, 0], ![0, 0, 1]] = some v ∧
      List.Forall₂ (fun m c => (∀ t ∈ [((![0, 0, 1] : Fin 3 → ℕ), 3)], t.1 = m → c = 7 - t.2) ∧ ((∀ t ∈ [((![0, 0, 1] : Fin 3 → ℕ), 3)], t.1 ≠ m) → c = 0)) [![0, 0, 0], ![0, 0, 1]] v := by
  refine ⟨by decide +kernel, C94_row_partial ?_ ?_ ?_ (by decide) (by decide +kernel)⟩
  · unfold Drl DrlOn; decide +kernel
  · unfold Drl DrlOn; decide +kernel
  · unfold Drl DrlOn; decide +kernel

end Verif.Props
