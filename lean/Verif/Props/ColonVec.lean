import Verif.ColonVec
import Verif.Props.Colon

/-!
C92: the vector of a normal form in `msolve -C`.
-/
namespace Verif.Props
open Verif.Orders Verif.Spec
open Verif.ColonVec (larger cmpLoop scan scanRow scanLoop skip copyLoop copyVec)

variable {n : ℕ}

namespace ColonVec

theorem cmpLoop_spec (a b : Fin n → ℕ) : ∀ i,
    (cmpLoop a b i = 0 ∧ ∀ j, 2 ≤ j → j ≤ i → ext a j = ext b j) ∨
    (cmpLoop a b i = 1 ∧ ∃ j, 2 ≤ j ∧ j ≤ i ∧ ext a j < ext b j ∧ ∀ k, j < k → k ≤ i → ext a k = ext b k) ∨
    (cmpLoop a b i = -1 ∧ ∃ j, 2 ≤ j ∧ j ≤ i ∧ ext b j < ext a j ∧ ∀ k, j < k → k ≤ i → ext a k = ext b k)
  | 0 => .inl ⟨rfl, fun j _ _ => by omega⟩
  | 1 => .inl ⟨rfl, fun j _ _ => by omega⟩
  | i + 2 => by
    rw [cmpLoop]
    split_ifs with h1 h2
    · exact .inr (.inl ⟨rfl, i + 2, by omega, le_rfl, h1, fun k _ _ => by omega⟩)
    · exact .inr (.inr ⟨rfl, i + 2, by omega, le_rfl, h2, fun k _ _ => by omega⟩)
    · have he : ext a (i + 2) = ext b (i + 2) := by omega
      have hstep : ∀ k, k ≤ i + 2 → k = i + 2 ∨ k ≤ i + 1 := fun k hk => by omega
      rcases cmpLoop_spec a b (i + 1) with ⟨g1, g2⟩ | ⟨g1, j, g2, g3, g4, g5⟩ | ⟨g1, j, g2, g3, g4, g5⟩
      · refine .inl ⟨g1, fun j hj hj' => ?_⟩
        rcases hstep j hj' with rfl | h
        · exact he
        · exact g2 j hj h
      · refine .inr (.inl ⟨g1, j, g2, by omega, g4, fun k hk hk' => ?_⟩)
        rcases hstep k hk' with rfl | h
        · exact he
        · exact g5 k hk h
      · refine .inr (.inr ⟨g1, j, g2, by omega, g4, fun k hk hk' => ?_⟩)
        rcases hstep k hk' with rfl | h
        · exact he
        · exact g5 k hk h

theorem cmp_cases (a b : Fin n → ℕ) : (larger a b = 0 ∧ ∑ i, a i = ∑ i, b i ∧ ∀ i : Fin n, 2 ≤ i.val → a i = b i) ∨ (larger a b = 1 ∧ Drl b a) ∨ (larger a b = -1 ∧ Drl a b) := by
  unfold larger
  split_ifs with h1 h2
  · exact .inr (.inr ⟨rfl, .inl h1⟩)
  · exact .inr (.inl ⟨rfl, .inl h2⟩)
  · have he : ∑ i, a i = ∑ i, b i := by omega
    rcases cmpLoop_spec a b (n - 1) with ⟨g1, g2⟩ | ⟨g1, j, g2, g3, g4, g5⟩ | ⟨g1, j, g2, g3, g4, g5⟩
    · refine .inl ⟨g1, he, fun i hi => ?_⟩
      have := g2 i.val hi (by omega)
      rwa [ext_val, ext_val] at this
    · refine .inr (.inl ⟨g1, .inr ⟨he.symm, ⟨j, by omega⟩, Finset.mem_univ _, ?_, fun k _ hk => ?_⟩⟩)
      · rwa [← ext_val a, ← ext_val b]
      · rw [← ext_val a, ← ext_val b]
        exact (g5 k.val hk (by omega)).symm
    · refine .inr (.inr ⟨g1, .inr ⟨he, ⟨j, by omega⟩, Finset.mem_univ _, ?_, fun k _ hk => ?_⟩⟩)
      · rwa [← ext_val a, ← ext_val b]
      · rw [← ext_val a, ← ext_val b]
        exact g5 k.val hk (by omega)

theorem larger_of_eq {a b : Fin n → ℕ} (h1 : ∑ i, a i = ∑ i, b i) (h2 : ∀ i : Fin n, 2 ≤ i.val → a i = b i) : larger a b = 0 := by
  unfold larger
  rw [if_neg (by omega), if_neg (by omega)]
  have hext : ∀ j, 2 ≤ j → j ≤ n - 1 → ext a j = ext b j := by
    intro j hj hj'
    have hjn : j < n := by omega
    have := h2 ⟨j, hjn⟩ hj
    rwa [← ext_val a, ← ext_val b] at this
  rcases cmpLoop_spec a b (n - 1) with ⟨g1, -⟩ | ⟨-, j, g2, g3, g4, -⟩ | ⟨-, j, g2, g3, g4, -⟩
  · exact g1
  · have := hext j g2 g3; omega
  · have := hext j g2 g3; omega

theorem irrefl (u : Fin n → ℕ) : ¬ Drl u u := drl_admissible.irrefl u

theorem scanRow_spec {m : Fin n → ℕ} : ∀ {rows : List (Fin n → ℕ)}, rows.Pairwise Drl →
    (scanRow m rows = none ∧ m ∉ rows) ∨ ∃ rs, scanRow m rows = some rs ∧ m ∈ rows ∧ rs.Pairwise Drl ∧ ∀ x, Drl m x → (x ∈ rs ↔ x ∈ rows)
  | [], _ => .inl ⟨rfl, by simp⟩
  | r :: rs, h => by
    rw [scanRow]
    by_cases hm : m = r
    · rw [if_pos hm]
      exact .inr ⟨_, rfl, by simp [hm], h, fun x _ => Iff.rfl⟩
    · rw [if_neg hm]
      have hr := List.pairwise_cons.mp h
      rcases scanRow_spec (m := m) hr.2 with ⟨h1, h2⟩ | ⟨rs', h1, h2, h3, h4⟩
      · exact .inl ⟨h1, by simp [hm, h2]⟩
      · refine .inr ⟨rs', h1, List.mem_cons_of_mem _ h2, h3, fun x hx => ?_⟩
        rw [h4 x hx, List.mem_cons]
        refine ⟨.inr, fun h => h.resolve_left ?_⟩
        rintro rfl
        exact irrefl _ (drl_admissible.trans _ _ _ hx (hr.1 m h2))

theorem scanLoop_spec {hm : List (Fin n → ℕ)} (hs : hm.Pairwise fun a b => Drl b a) : ∀ (cnt j : ℕ) (rows : List (Fin n → ℕ)), rows.Pairwise Drl →
    (scanLoop hm cnt j rows = .ok ↔ (cnt = 0 ∨ j + cnt ≤ hm.length) ∧ ∀ i, j ≤ i → i < j + cnt → hm.getD (hm.length - 1 - i) 0 ∈ rows) := by
  intro cnt
  induction cnt with
  | zero =>
    intro j rows _
    simp only [scanLoop, true_or, true_and, true_iff]
    intro i h1 h2
    omega
  | succ cnt ih =>
    intro j rows hr
    rw [scanLoop]
    by_cases hj : hm.length ≤ j
    · rw [if_pos hj]
      simp only [reduceCtorEq, false_iff]
      rintro ⟨h1 | h1, -⟩
      · cases h1
      · omega
    rw [if_neg hj]
    rcases scanRow_spec (m := hm.getD (hm.length - 1 - j) 0) hr with ⟨h1, h2⟩ | ⟨rs, h1, h2, h3, h4⟩
    · rw [h1]
      simp only [reduceCtorEq, false_iff]
      rintro ⟨-, h⟩
      exact h2 (h j le_rfl (by omega))
    · rw [h1]
      simp only
      rw [ih (j + 1) rs h3]
      have key : ∀ i, j < i → i < hm.length → Drl (hm.getD (hm.length - 1 - j) 0) (hm.getD (hm.length - 1 - i) 0) := by
        intro i hi hl
        rw [List.getD_eq_getElem _ _ (by omega), List.getD_eq_getElem _ _ (by omega)]
        exact List.pairwise_iff_getElem.mp hs _ _ _ _ (by omega)
      constructor
      · rintro ⟨g1, g2⟩
        refine ⟨.inr (by omega), fun i hi hi' => ?_⟩
        rcases Nat.eq_or_lt_of_le hi with rfl | hlt
        · exact h2
        · exact (h4 _ (key i hlt (by omega))).mp (g2 i (by omega) (by omega))
      · rintro ⟨g1, g2⟩
        refine ⟨by omega, fun i hi hi' => ?_⟩
        exact (h4 _ (key i (by omega) (by omega))).mpr (g2 i (by omega) (by omega))

theorem skip_spec {r : List ((Fin n → ℕ) × ℕ)} (h2 : 2 ≤ r.length) (h32 : r.length < 2 ^ 32) (row : Fin n → ℕ) : ∀ (fuel k : ℕ), k < r.length → r.length < fuel + k →
    ∃ k', skip r row fuel k = some k' ∧ k ≤ k' ∧ k' < r.length ∧ (∀ i, k ≤ i → i < k' → larger (r.getD i 0).1 row < 0) ∧
      (¬ larger (r.getD k' 0).1 row < 0 ∨ r.length - 2 ≤ k') ∧ (k' ≤ r.length - 2 ∨ k' = k) := by
  have hb : (r.length + (2 ^ 32 - 2)) % 2 ^ 32 = r.length - 2 := by omega
  intro fuel
  induction fuel with
  | zero => intro k hk hf; omega
  | succ fuel ih =>
    intro k hk hf
    rw [skip, if_pos hk, hb]
    by_cases hc : larger (r.getD k 0).1 row < 0 ∧ k < r.length - 2
    · rw [if_pos hc]
      obtain ⟨k', g1, g2, g3, g4, g5, g6⟩ := ih (k + 1) (by omega) (by omega)
      refine ⟨k', g1, by omega, g3, fun i hi hi' => ?_, g5, by omega⟩
      rcases Nat.eq_or_lt_of_le hi with rfl | hlt
      · exact hc.1
      · exact g4 i hlt hi'
    · rw [if_neg hc]
      refine ⟨k, rfl, le_rfl, hk, fun i hi hi' => by omega, ?_, .inr rfl⟩
      by_contra hcon
      push Not at hcon
      exact hc ⟨hcon.1, hcon.2⟩

/-- The coefficient of a monomial. -/
def Coef (terms : List ((Fin n → ℕ) × ℕ)) (m : Fin n → ℕ) (v : ℕ) : Prop := (∀ t ∈ terms, t.1 = m → v = t.2) ∧ ((∀ t ∈ terms, t.1 ≠ m) → v = 0)

theorem copyLoop_spec {r : List ((Fin n → ℕ) × ℕ)} (h2 : 2 ≤ r.length) (h32 : r.length < 2 ^ 32) (hs : r.Pairwise fun a b => Drl a.1 b.1) :
    ∀ (rows : List (Fin n → ℕ)) (k : ℕ), rows.Pairwise Drl → (∀ t ∈ r, ∀ row ∈ rows, larger t.1 row = 0 → t.1 = row) →
    (∀ i < k, i < r.length → ∀ row ∈ rows, Drl (r.getD i 0).1 row) →
    (k ≤ r.length - 2 → (r.getD (r.length - 1) 0).1 ∈ rows → (r.getD (r.length - 2) 0).1 ∈ rows) →
    ∃ v, copyLoop r k rows = some v ∧ List.Forall₂ (Coef r) rows v := by
  have hlt : ∀ i j, i < j → j < r.length → Drl (r.getD i 0).1 (r.getD j 0).1 := by
    intro i j hij hj
    rw [List.getD_eq_getElem _ _ (by omega), List.getD_eq_getElem _ _ (by omega)]
    exact List.pairwise_iff_getElem.mp hs _ _ _ _ hij
  have hget : ∀ t ∈ r, ∃ i, i < r.length ∧ r.getD i 0 = t := by
    intro t ht
    obtain ⟨i, hi, rfl⟩ := List.getElem_of_mem ht
    exact ⟨i, hi, List.getD_eq_getElem _ _ hi⟩
  have hin : ∀ i, i < r.length → r.getD i 0 ∈ r := fun i hi => by
    rw [List.getD_eq_getElem _ _ hi]
    exact List.getElem_mem hi
  have tr := @drl_admissible n |>.trans
  have hzero : ∀ row, (∀ i, i < r.length → (r.getD i 0).1 ≠ row) → Coef r row 0 := by
    intro row h
    refine ⟨fun t ht he => ?_, fun _ => rfl⟩
    obtain ⟨i, hi, rfl⟩ := hget t ht
    exact absurd he (h i hi)
  intro rows
  induction rows with
  | nil => intro k _ _ _ _; exact ⟨[], rfl, .nil⟩
  | cons row rows ih =>
    intro k hr hinj hk hlast
    have hr' := List.pairwise_cons.mp hr
    have hinj' : ∀ t ∈ r, ∀ row ∈ rows, larger t.1 row = 0 → t.1 = row := fun t ht x hx => hinj t ht x (List.mem_cons_of_mem _ hx)
    rw [copyLoop]
    by_cases hkl : k < r.length
    · rw [if_pos hkl]
      obtain ⟨k', g1, g2, g3, g4, g5, g6⟩ := skip_spec h2 h32 row (r.length + 1) k hkl (by omega)
      rw [g1]
      simp only
      have hbelow : ∀ i, i < k' → Drl (r.getD i 0).1 row := by
        intro i hi
        rcases Nat.lt_or_ge i k with h | h
        · exact hk i h (by omega) row List.mem_cons_self
        · have := g4 i h hi
          rcases cmp_cases (r.getD i 0).1 row with ⟨h0, -⟩ | ⟨h0, -⟩ | ⟨-, h0⟩
          · omega
          · omega
          · exact h0
      have hrest : ∀ i, i < k' → ∀ x ∈ rows, Drl (r.getD i 0).1 x := fun i hi x hx => tr _ _ _ (hbelow i hi) (hr'.1 x hx)
      rcases cmp_cases (r.getD k' 0).1 row with ⟨h0, -⟩ | ⟨h0, hd⟩ | ⟨h0, hd⟩
      · rw [if_pos h0]
        have he := hinj _ (hin k' g3) row List.mem_cons_self h0
        obtain ⟨v, l1, l2⟩ := ih (k' + 1) hr'.2 hinj' (fun i hi _ x hx => by
          rcases Nat.lt_succ_iff_lt_or_eq.mp hi with h | rfl
          · exact hrest i h x hx
          · rw [he]; exact hr'.1 x hx) (fun hk2 hm => by
          have := hlast (by omega) (List.mem_cons_of_mem _ hm)
          rcases List.mem_cons.mp this with hh | hh
          · exact absurd (hh ▸ he ▸ hlt k' (r.length - 2) (by omega) (by omega)) (irrefl _)
          · exact hh)
        refine ⟨_, by rw [l1]; rfl, .cons ⟨fun t ht hte => ?_, fun hno => absurd he (hno _ (hin k' g3))⟩ l2⟩
        obtain ⟨i, hi, rfl⟩ := hget t ht
        rcases Nat.lt_trichotomy i k' with h | rfl | h
        · exact absurd (hte ▸ he ▸ hlt i k' h g3) (irrefl _)
        · rfl
        · exact absurd (hte ▸ he ▸ hlt k' i h hi) (irrefl _)
      · rw [if_neg (by omega)]
        obtain ⟨v, l1, l2⟩ := ih k' hr'.2 hinj' (fun i hi _ x hx => hrest i hi x hx) (fun hk2 hm => by
          have := hlast (by omega) (List.mem_cons_of_mem _ hm)
          rcases List.mem_cons.mp this with hh | hh
          · rcases Nat.eq_or_lt_of_le hk2 with h | h
            · exact absurd (hh ▸ h ▸ hd) (irrefl _)
            · exact absurd (tr _ _ _ hd (hh ▸ hlt k' (r.length - 2) h (by omega))) (irrefl _)
          · exact hh)
        refine ⟨_, by rw [l1]; rfl, .cons (hzero _ fun i hi he => ?_) l2⟩
        rcases Nat.lt_trichotomy i k' with h | rfl | h
        · exact irrefl _ (he ▸ hbelow i h)
        · exact irrefl _ (he ▸ hd)
        · exact irrefl _ (tr _ _ _ hd (he ▸ hlt k' i h hi))
      · rw [if_neg (by omega)]
        have hk2 : r.length - 2 ≤ k' := by
          rcases g5 with h | h
          · omega
          · exact h
        obtain ⟨v, l1, l2⟩ := ih k' hr'.2 hinj' (fun i hi _ x hx => hrest i hi x hx) (fun hk2 hm => by
          have := hlast (by omega) (List.mem_cons_of_mem _ hm)
          rcases List.mem_cons.mp this with hh | hh
          · have : k' = r.length - 2 := by omega
            exact absurd (hh ▸ this ▸ hd) (irrefl _)
          · exact hh)
        refine ⟨_, by rw [l1]; rfl, .cons (hzero _ fun i hi he => ?_) l2⟩
        rcases Nat.lt_trichotomy i k' with h | rfl | h
        · exact irrefl _ (he ▸ hbelow i h)
        · exact irrefl _ (he ▸ hd)
        · have e1 : i = r.length - 1 := by omega
          have e2 : k' = r.length - 2 := by omega
          have := hlast (by omega) (by rw [← e1, he]; exact List.mem_cons_self)
          rw [← e2] at this
          rcases List.mem_cons.mp this with hh | hh
          · exact irrefl _ (hh ▸ hd)
          · exact irrefl _ (tr _ _ _ hd (hr'.1 _ hh))
    · rw [if_neg hkl]
      obtain ⟨v, l1, l2⟩ := ih k hr'.2 hinj' (fun i hi hl x hx => hk i hi hl x (List.mem_cons_of_mem _ hx)) (fun h => by omega)
      refine ⟨_, by rw [l1]; rfl, .cons (hzero _ fun i hi he => ?_) l2⟩
      exact irrefl _ (he ▸ hk i (by omega) hi row List.mem_cons_self)

theorem rows_of {x : Verif.Colon.Out n} {L : List (Fin n → ℕ)} (h : (match x with | .rows L => some L | _ => none) = some L) : x = .rows L := by
  cases x <;> simp_all

end ColonVec

open Verif.Props.ColonVec

/-- C92: when the comparison of two monomials says that one is greater, it is so for the degree reverse lexicographic order; it says that they are equal if the degrees and the exponents of
all variables but the first two agree. -/
theorem C92_compare (a b : Fin n → ℕ) : (larger a b = 1 → Drl b a) ∧ (larger a b = -1 → Drl a b) ∧ (larger a b = 0 ↔ ∑ i, a i = ∑ i, b i ∧ ∀ i : Fin n, 2 ≤ i.val → a i = b i) := by
  rcases cmp_cases a b with ⟨h, h1, h2⟩ | ⟨h, hd⟩ | ⟨h, hd⟩
  · rw [h]
    exact ⟨fun hc => by omega, fun hc => by omega, fun _ => ⟨h1, h2⟩, fun _ => rfl⟩
  · rw [h]
    refine ⟨fun _ => hd, fun hc => by omega, fun hc => by omega, fun hc => ?_⟩
    exfalso
    have := larger_of_eq hc.1 hc.2
    omega
  · rw [h]
    refine ⟨fun hc => by omega, fun _ => hd, fun hc => by omega, fun hc => ?_⟩
    exfalso
    have := larger_of_eq hc.1 hc.2
    omega

/-- C92 (finding): different monomials are taken to be equal, as the loop ends before the second variable: `x` and `y`, and in general monomials of the same degree in the first two variables. -/
theorem C92_confused : larger ![1, 0] ![0, 1] = 0 ∧ larger ![2, 0, 1] ![0, 2, 1] = 0 := by decide

/-- C92: the search before the vector is filled ends without reading outside of the terms and the rows exactly if the normal form has at least five terms, and the five smallest are rows. -/
theorem C92_search {hm rows : List (Fin n → ℕ)} (hs : hm.Pairwise fun a b => Drl b a) (hr : rows.Pairwise Drl) :
    scan hm rows = .ok ↔ 5 ≤ hm.length ∧ ∀ m ∈ hm.drop (hm.length - 5), m ∈ rows := by
  unfold scan
  rw [scanLoop_spec hs 5 0 rows hr]
  constructor
  · rintro ⟨h1, h2⟩
    have h5 : 5 ≤ hm.length := by omega
    refine ⟨h5, fun m hm' => ?_⟩
    obtain ⟨i, hi, rfl⟩ := List.getElem_of_mem hm'
    rw [List.length_drop] at hi
    have := h2 (4 - i) (by omega) (by omega)
    rw [List.getD_eq_getElem _ _ (by omega)] at this
    rw [List.getElem_drop]
    have e : hm.length - 1 - (4 - i) = hm.length - 5 + i := by omega
    simp only [e] at this
    exact this
  · rintro ⟨h1, h2⟩
    refine ⟨by omega, fun i _ hi => h2 _ ?_⟩
    rw [List.getD_eq_getElem _ _ (by omega), List.mem_iff_getElem]
    refine ⟨4 - i, by rw [List.length_drop]; omega, ?_⟩
    rw [List.getElem_drop]
    have e : hm.length - 5 + (4 - i) = hm.length - 1 - i := by omega
    simp only [e]

/-- C92 (finding): if the normal form has a constant term and no power of the last variable is a leading monomial, the rows are left in this search. -/
theorem C92_constant (hn : 1 ≤ n) {lms : List (Fin n → ℕ)} (h : (fun _ => 0) ∉ lms) (hp : ¬ ∃ l ∈ lms, ∀ i : Fin n, i.val + 1 < n → l i = 0) {D : ℕ} {rows : List (Fin n → ℕ)}
    (hrows : Verif.Colon.noZero lms D = .rows rows) {hm : List (Fin n → ℕ)} (hs : hm.Pairwise fun a b => Drl b a) (h0 : (fun _ => 0) ∈ hm) : scan hm rows ≠ .ok := by
  obtain ⟨L, h1, h2, h3⟩ := C91_kept hn h D
  have hL : rows = L := by
    rw [h1] at hrows
    split_ifs at hrows
    injection hrows with hrows
    exact hrows.symm
  subst hL
  rw [ne_eq, C92_search hs h2]
  rintro ⟨k1, k2⟩
  have hlast : (fun _ => 0) ∈ hm.drop (hm.length - 5) := by
    by_contra hc
    have hsplit := List.take_append_drop (hm.length - 5) hm
    have hmem : (fun _ => 0) ∈ hm.take (hm.length - 5) := by
      rw [← hsplit] at h0
      exact (List.mem_append.mp h0).resolve_right hc
    rw [← hsplit] at hs
    have hne : hm.drop (hm.length - 5) ≠ [] := by
      intro he
      have := congrArg List.length he
      rw [List.length_drop] at this
      simp at this
      omega
    obtain ⟨m, hm'⟩ := List.exists_mem_of_ne_nil _ hne
    have hd := (List.pairwise_append.mp hs).2.2 _ hmem m hm'
    rcases hd with hd | ⟨he, i, -, hd, -⟩
    · simp at hd
    · have := Finset.single_le_sum (f := m) (fun _ _ => Nat.zero_le _) (Finset.mem_univ i)
      rw [he] at this
      simp only [Finset.sum_const_zero] at this
      omega
  obtain ⟨-, -, k, l, hl, hle⟩ := (h3 _).mp (k2 _ hlast)
  refine hp ⟨l, hl, fun i hi => ?_⟩
  have := hle i
  rw [if_neg (by omega)] at this
  exact Nat.le_zero.mp this

/-- C92: the entries of the vector are the coefficients of the rows in the normal form, if no two different monomials are taken to be equal, and the second greatest
monomial is a row if the greatest one is.

Partial: without these conditions the claim is false, see `C92_moved` and `C92_dropped`. -/
theorem C92_vector_partial {terms : List ((Fin n → ℕ) × ℕ)} {rows : List (Fin n → ℕ)} (hs : terms.Pairwise fun a b => Drl b.1 a.1) (hr : rows.Pairwise Drl)
    (h32 : terms.length < 2 ^ 32) {a b : (Fin n → ℕ) × ℕ} {rest : List ((Fin n → ℕ) × ℕ)} (ht : terms = a :: b :: rest) (hab : a.1 ∈ rows → b.1 ∈ rows)
    (hinj : ∀ t ∈ terms, ∀ row ∈ rows, ∑ i, t.1 i = ∑ i, row i → (∀ i : Fin n, 2 ≤ i.val → t.1 i = row i) → t.1 = row) :
    ∃ v, copyVec terms rows = some v ∧ List.Forall₂ (fun m c => (∀ t ∈ terms, t.1 = m → c = t.2) ∧ ((∀ t ∈ terms, t.1 ≠ m) → c = 0)) rows v := by
  have hl : terms.reverse.length = rest.length + 2 := by simp [ht]
  have e1 : terms.reverse.getD (terms.reverse.length - 1) 0 = a := by
    rw [hl, ht]
    simp [List.getD_eq_getElem?_getD]
  have e2 : terms.reverse.getD (terms.reverse.length - 2) 0 = b := by
    rw [hl, ht]
    simp [List.getD_eq_getElem?_getD]
  obtain ⟨v, h1, h2⟩ := copyLoop_spec (r := terms.reverse) (by omega) (by simpa using h32) (List.pairwise_reverse.mpr hs) rows 0 hr
    (fun t ht row hrow h0 => hinj t (List.mem_reverse.mp ht) row hrow ((C92_compare _ _).2.2.mp h0).1 ((C92_compare _ _).2.2.mp h0).2)
    (fun i hi => by omega) (fun _ hm => by rw [e2]; rw [e1] at hm; exact hab hm)
  refine ⟨v, h1, h2.imp fun m c h => ?_⟩
  exact ⟨fun t ht => h.1 t (List.mem_reverse.mpr ht), fun hno => h.2 fun t ht => hno t (List.mem_reverse.mp ht)⟩

/-- C92 (finding): for the ideal of all monomials of degree 3 in `x, y` and the normal form `x^2+x*y+y^2+5*x+1` the search succeeds, but the coefficient 5 of `x` is written to the entry of `y`. -/
theorem C92_moved : Verif.Colon.noZero [![0, 3], ![1, 2], ![2, 1], ![3, 0]] (Verif.Colon.maxDeg 2 [![0, 3], ![1, 2], ![2, 1], ![3, 0]]) =
      .rows [![0, 0], ![0, 1], ![1, 0], ![0, 2], ![1, 1], ![2, 0]] ∧
    scan [![2, 0], ![1, 1], ![0, 2], ![1, 0], ![0, 0]] [![0, 0], ![0, 1], ![1, 0], ![0, 2], ![1, 1], ![2, 0]] = .ok ∧
    copyVec [(![2, 0], 1), (![1, 1], 1), (![0, 2], 1), (![1, 0], 5), (![0, 0], 1)] [![0, 0], ![0, 1], ![1, 0], ![0, 2], ![1, 1], ![2, 0]] = some [1, 5, 0, 1, 1, 1] := by
  exact ⟨rows_of (by decide +kernel), by decide +kernel, by decide +kernel⟩

/-- C92 (finding): the rows for `x*z` up to degree 2 are `x, x*y, x^2`; of the normal form `5*x^2+3*z^2+2*x` the coefficient 5 is lost, as `z^2` is no row. -/
theorem C92_dropped : Verif.Colon.noZero [![1, 0, 1]] (Verif.Colon.maxDeg 2 [![1, 0, 1]]) = .rows [![1, 0, 0], ![1, 1, 0], ![2, 0, 0]] ∧
    copyVec [(![2, 0, 0], 5), (![0, 0, 2], 3), (![1, 0, 0], 2)] [![1, 0, 0], ![1, 1, 0], ![2, 0, 0]] = some [2, 0, 0] := by
  exact ⟨rows_of (by decide +kernel), by decide +kernel⟩

/-- C92 (finding): a normal form with one term that is smaller than the first row is read outside of its terms. -/
theorem C92_single : copyVec [((![0, 0] : Fin 2 → ℕ), 1)] [![0, 1]] = none := by decide +kernel

/-- The hypotheses of `C92_vector_partial` are met: `z^2+2*z+3` with the rows `1, z, y, z^2`. -/
example : copyVec [((![0, 0, 2] : Fin 3 → ℕ), 1), (![0, 0, 1], 2), (![0, 0, 0], 3)] [![0, 0, 0], ![0, 0, 1], ![0, 1, 0], ![0, 0, 2]] = some [3, 2, 0, 1] ∧
    ∃ v, copyVec [((![0, 0, 2] : Fin 3 → ℕ), 1), (![0, 0, 1], 2), (![0, 0, 0], 3)] [![0, 0, 0], ![0, 0, 1], ![0, 1, 0], ![0, 0, 2]] = some v ∧
      List.Forall₂ (fun m c => (∀ t ∈ [((![0, 0, 2] : Fin 3 → ℕ), 1), (![0, 0, 1], 2), (![0, 0, 0], 3)], t.1 = m → c = t.2) ∧
        ((∀ t ∈ [((![0, 0, 2] : Fin 3 → ℕ), 1), (![0, 0, 1], 2), (![0, 0, 0], 3)], t.1 ≠ m) → c = 0)) [![0, 0, 0], ![0, 0, 1], ![0, 1, 0], ![0, 0, 2]] v := by
  refine ⟨by decide +kernel, C92_vector_partial ?_ ?_ (by norm_num) rfl (by simp) (by decide +kernel)⟩
  · unfold Drl DrlOn
    decide +kernel
  · unfold Drl DrlOn
    decide +kernel

end Verif.Props
