import Mathlib.Tactic.Ring
import Mathlib.Tactic.Linarith
import Mathlib.Tactic.NormNum
import Mathlib.Order.WellQuasiOrder
import Mathlib.Order.WellFoundedSet
import Mathlib.Algebra.BigOperators.Fin
import Mathlib.Algebra.BigOperators.Intervals
import Verif.Spec.Monomial
import Mathlib.Algebra.Order.BigOperators.Group.Finset

/-! Model of the exponent vector layout (`src/neogb/io.c`, `src/neogb/data.h`) and of the monomial
comparisons (`src/neogb/order.c`). -/

namespace Verif.Orders

open Finset

/-! ### Exponent vectors

An exponent vector is an array of `uint16_t` (`exp_t`), modelled as `Nat → Nat` (only the indices
below `evl` are meaningful). -/

/-- Index of the degree of the second block, basis/hash initialisation (hash.c 69-90):
0 without elimination block, `nev + 1` with an elimination block of `nev` variables. -/
def ebl (nev : Nat) : Nat := if nev = 0 then 0 else nev + 1

/-- Offset of the variables of the second block, io.c 37. -/
def off (nev : Nat) : Nat := ebl nev - nev + 1

/-- Length of an exponent vector (hash.c 69-90): one resp. two degree entries. -/
def evl (nv nev : Nat) : Nat := nv + (if nev = 0 then 1 else 2)

/-- First loop body of `set_exponent_vector`, io.c 42-46 (`exp_t` arithmetic wraps at 2^16). -/
def step1 (u : Nat → Nat) (ev : Nat → Nat) (i : Nat) : Nat → Nat :=
  let ev := Function.update ev (i + 1) (u i % 65536)
  Function.update ev 0 ((ev 0 + ev (i + 1)) % 65536)

/-- Second loop body of `set_exponent_vector`, io.c 47-51. -/
def step2 (nev : Nat) (u : Nat → Nat) (ev : Nat → Nat) (i : Nat) : Nat → Nat :=
  let ev := Function.update ev (i + off nev) (u i % 65536)
  Function.update ev (ebl nev) ((ev (ebl nev) + ev (i + off nev)) % 65536)

/-- `set_exponent_vector`, io.c 25-53.  `u` is the input exponent vector (non negative, as validated
or produced by the parser), `ev0` the previous content of the buffer. -/
def setEv (nv nev : Nat) (u ev0 : Nat → Nat) : Nat → Nat :=
  let ev := Function.update (Function.update ev0 0 0) (ebl nev) 0
  let ev := (List.range nev).foldl (step1 u) ev
  (List.range' nev (nv - nev)).foldl (step2 nev u) ev

/-! ### Comparisons -/

/-- `while (i > stop && ea[i] == eb[i]) --i;` -/
def scanDown (ea eb : Nat → Nat) (stop : Nat) : Nat → Nat
  | 0 => 0
  | i + 1 => if i + 1 > stop ∧ ea (i + 1) = eb (i + 1) then scanDown ea eb stop i else i + 1

/-- `monomial_cmp_drl`, order.c 498-527 (the shortcut for equal hash indices is the case of equal
vectors). `exp_t` values are promoted to `int`, so the difference is exact. -/
def cmpDrl (evl : Nat) (ea eb : Nat → Nat) : Int :=
  if ea 0 > eb 0 then 1
  else if ea 0 ≠ eb 0 then -1
  else
    let i := scanDown ea eb 1 (evl - 1)
    (eb i : Int) - ea i

/-- `initial_input_cmp_drl`, order.c 394-424. -/
def initialInputCmpDrl (evl : Nat) (ea eb : Nat → Nat) : Int :=
  if ea 0 < eb 0 then -1
  else if ea 0 ≠ eb 0 then 1
  else
    let i := scanDown ea eb 1 (evl - 1)
    (eb i : Int) - ea i

/-- `initial_gens_cmp_drl`, order.c 426-455 (and `initial_input_cmp_drl_reverse` 361-391,
`initial_input_cmp_sig` 861-891, which have the same body). -/
def initialGensCmpDrl (evl : Nat) (ea eb : Nat → Nat) : Int :=
  if ea 0 < eb 0 then 1
  else if ea 0 ≠ eb 0 then -1
  else
    let i := scanDown ea eb 1 (evl - 1)
    (ea i : Int) - eb i

/-- `monomial_cmp_pivots_drl`, order.c 457-496; `ia`, `ib` are the column classes stored in the hash
data (`hd[].idx`). -/
def cmpPivotsDrl (evl : Nat) (ia ib : Nat) (ea eb : Nat → Nat) : Int :=
  if ia ≠ ib then (if ia < ib then 1 else -1)
  else if ea 0 > eb 0 then -1
  else if ea 0 ≠ eb 0 then 1
  else
    let i := scanDown ea eb 1 (evl - 1)
    (ea i : Int) - eb i

/-- `monomial_cmp_be`, order.c 767-813. -/
def cmpBe (evl ebl : Nat) (ea eb : Nat → Nat) : Int :=
  if ea 0 > eb 0 then 1
  else if ea 0 ≠ eb 0 then -1
  else
    let i := scanDown ea eb 1 (ebl - 1)
    if (eb i : Int) - ea i ≠ 0 then (eb i : Int) - ea i
    else if ea ebl > eb ebl then 1
    else if ea ebl ≠ eb ebl then -1
    else
      let i := scanDown ea eb ebl (evl - 1)
      (eb i : Int) - ea i

/-- `monomial_cmp_pivots_be`, order.c 708-765. -/
def cmpPivotsBe (evl ebl : Nat) (ia ib : Nat) (ea eb : Nat → Nat) : Int :=
  if ia ≠ ib then (if ia < ib then 1 else -1)
  else if ea 0 > eb 0 then -1
  else if ea 0 ≠ eb 0 then 1
  else
    let i := scanDown ea eb 1 (ebl - 1)
    if (ea i : Int) - eb i ≠ 0 then (ea i : Int) - eb i
    else if ea ebl > eb ebl then -1
    else if ea ebl ≠ eb ebl then 1
    else
      let i := scanDown ea eb ebl (evl - 1)
      (ea i : Int) - eb i

/-- `while (i < evl-1 && ea[i] == eb[i]) ++i;` -/
def scanUp (ea eb : Nat → Nat) (last i : Nat) : Nat :=
  if i < last ∧ ea i = eb i then scanUp ea eb last (i + 1) else i
termination_by last - i

/-- `monomial_cmp_lex`, order.c 303-320 (also `initial_input_cmp_lex` 219-242 and
`initial_gens_cmp_lex` 244-267). -/
def cmpLex (evl : Nat) (ea eb : Nat → Nat) : Int :=
  let i := scanUp ea eb (evl - 1) 1
  (ea i : Int) - eb i

/-- `monomial_cmp_pivots_lex`, order.c 269-301. -/
def cmpPivotsLex (evl : Nat) (ia ib : Nat) (ea eb : Nat → Nat) : Int :=
  if ia ≠ ib then (if ia < ib then 1 else -1)
  else
    let i := scanUp ea eb (evl - 1) 1
    (eb i : Int) - ea i

/-! ### The textbook orders are admissible -/

open Verif.Spec

variable {n : Nat}

/-- Dickson's lemma: the first five conditions imply well-foundedness. -/
theorem admissible_of_total (lt : (Fin n → ℕ) → (Fin n → ℕ) → Prop)
    (irrefl : ∀ u, ¬ lt u u)
    (trans : ∀ u v w, lt u v → lt v w → lt u w)
    (total : ∀ u v, lt u v ∨ u = v ∨ lt v u)
    (mul : ∀ u v w, lt u v → lt (u + w) (v + w))
    (one_lt : ∀ u, u ≠ 0 → lt 0 u) : Admissible lt := by
  refine ⟨irrefl, trans, total, mul, one_lt, ?_⟩
  have hle : ∀ u v : Fin n → ℕ, u ≤ v → ¬ lt v u := by
    intro u v h hlt
    have e : v = (v - u) + u := by
      funext i
      have hi : u i ≤ v i := h i
      simp only [Pi.add_apply, Pi.sub_apply]
      omega
    by_cases h0 : v - u = 0
    · rw [h0, zero_add] at e
      rw [e] at hlt
      exact irrefl _ hlt
    · have := mul 0 (v - u) u (one_lt _ h0)
      rw [zero_add, ← e] at this
      exact irrefl _ (trans _ _ _ hlt this)
  have : IsTrans (Fin n → ℕ) lt := ⟨trans⟩
  have : Std.Irrefl lt := ⟨irrefl⟩
  have : IsStrictOrder (Fin n → ℕ) lt := {}
  rw [RelEmbedding.wellFounded_iff_isEmpty]
  refine ⟨fun f => ?_⟩
  have hwqo : WellQuasiOrdered ((· ≤ ·) : (Fin n → ℕ) → (Fin n → ℕ) → Prop) := by
    have := (wellQuasiOrdered_le (α := ℕ))
    exact wellQuasiOrdered_le
  obtain ⟨i, j, hij, h⟩ := hwqo (fun k => f k)
  have : lt (f j) (f i) := f.map_rel_iff.mpr hij
  exact hle _ _ h this

theorem drlOn_irrefl (S : Finset (Fin n)) (u : Fin n → ℕ) : ¬ DrlOn S u u := by
  rintro (h | ⟨-, i, -, h, -⟩) <;> omega

theorem drlOn_trans (S : Finset (Fin n)) (u v w : Fin n → ℕ) (h1 : DrlOn S u v)
    (h2 : DrlOn S v w) : DrlOn S u w := by
  rcases h1 with h1 | ⟨e1, i, hi, hlt1, heq1⟩
  · rcases h2 with h2 | ⟨e2, -⟩
    · left; omega
    · left; omega
  · rcases h2 with h2 | ⟨e2, j, hj, hlt2, heq2⟩
    · left; omega
    · right
      refine ⟨e1.trans e2, ?_⟩
      rcases lt_trichotomy i j with h | h | h
      · refine ⟨j, hj, by rw [heq1 j hj h]; exact hlt2, fun k hk hjk => ?_⟩
        rw [heq1 k hk (h.trans hjk), heq2 k hk hjk]
      · subst h
        exact ⟨i, hi, by omega, fun k hk hik => (heq1 k hk hik).trans (heq2 k hk hik)⟩
      · refine ⟨i, hi, by rw [← heq2 i hi h]; exact hlt1, fun k hk hik => ?_⟩
        rw [heq1 k hk hik, heq2 k hk (h.trans hik)]

theorem drlOn_total (S : Finset (Fin n)) (u v : Fin n → ℕ) :
    DrlOn S u v ∨ (∀ i ∈ S, u i = v i) ∨ DrlOn S v u := by
  by_cases heq : ∀ i ∈ S, u i = v i
  · exact Or.inr (Or.inl heq)
  · push Not at heq
    have hne : (S.filter (fun i => u i ≠ v i)).Nonempty := by
      obtain ⟨i, hi, h⟩ := heq
      exact ⟨i, mem_filter.mpr ⟨hi, h⟩⟩
    set i := (S.filter (fun i => u i ≠ v i)).max' hne with hi
    have hmem := mem_filter.mp (max'_mem _ hne)
    rw [← hi] at hmem
    have htop : ∀ j ∈ S, i < j → u j = v j := by
      intro j hj hij
      by_contra hc
      have := le_max' (S.filter (fun i => u i ≠ v i)) j (mem_filter.mpr ⟨hj, hc⟩)
      rw [← hi] at this
      omega
    rcases lt_trichotomy (∑ i ∈ S, u i) (∑ i ∈ S, v i) with h | h | h
    · exact Or.inl (Or.inl h)
    · rcases lt_or_gt_of_ne hmem.2 with h2 | h2
      · exact Or.inr (Or.inr (Or.inr ⟨h.symm, i, hmem.1, h2, fun j hj hij => (htop j hj hij).symm⟩))
      · exact Or.inl (Or.inr ⟨h, i, hmem.1, h2, htop⟩)
    · exact Or.inr (Or.inr (Or.inl h))

theorem drlOn_add (S : Finset (Fin n)) (u v w : Fin n → ℕ) (h : DrlOn S u v) :
    DrlOn S (u + w) (v + w) := by
  unfold DrlOn at *
  simp only [Pi.add_apply, sum_add_distrib]
  rcases h with h | ⟨e, i, hi, h1, h2⟩
  · left; omega
  · right
    refine ⟨by omega, i, hi, by omega, fun j hj hij => ?_⟩
    rw [h2 j hj hij]

theorem drlOn_zero (S : Finset (Fin n)) (u : Fin n → ℕ) (h : ∃ i ∈ S, u i ≠ 0) : DrlOn S 0 u := by
  left
  obtain ⟨i, hi, h⟩ := h
  simp only [Pi.zero_apply, sum_const_zero]
  exact sum_pos' (fun _ _ => Nat.zero_le _) ⟨i, hi, Nat.pos_of_ne_zero h⟩

theorem drlOn_congr (S : Finset (Fin n)) {u v : Fin n → ℕ} (h : ∀ i ∈ S, u i = v i) :
    ¬ DrlOn S u v := by
  rintro (h1 | ⟨-, i, hi, h1, -⟩)
  · exact absurd h1 (by rw [sum_congr rfl h]; exact lt_irrefl _)
  · have := h i hi; omega

theorem drl_admissible : Admissible (n := n) Drl := by
  apply admissible_of_total
  · exact fun u => drlOn_irrefl _ u
  · exact fun u v w => drlOn_trans _ u v w
  · intro u v
    rcases drlOn_total univ u v with h | h | h
    · exact Or.inl h
    · exact Or.inr (Or.inl (funext fun i => h i (mem_univ i)))
    · exact Or.inr (Or.inr h)
  · exact fun u v w h => drlOn_add _ u v w h
  · intro u hu
    apply drlOn_zero
    by_contra hc
    push Not at hc
    exact hu (funext fun i => hc i (mem_univ i))

theorem be_admissible (k : Nat) : Admissible (n := n) (Be k) := by
  apply admissible_of_total
  · rintro u (h | ⟨-, h⟩)
    · exact drlOn_irrefl _ _ h
    · exact drlOn_irrefl _ _ h
  · rintro u v w (h1 | ⟨e1, h1⟩) (h2 | ⟨e2, h2⟩)
    · exact Or.inl (drlOn_trans _ _ _ _ h1 h2)
    · left
      rcases drlOn_total (univ.filter (fun i : Fin n => i.val < k)) u w with h | h | h
      · exact h
      · exfalso
        exact drlOn_congr _ (fun i hi => (h i hi).trans (e2 i (mem_filter.mp hi).2).symm) h1
      · exfalso
        have h3 := drlOn_trans _ _ _ _ h h1
        exact drlOn_congr _ (fun i hi => (e2 i (mem_filter.mp hi).2).symm) h3
    · left
      rcases drlOn_total (univ.filter (fun i : Fin n => i.val < k)) u w with h | h | h
      · exact h
      · exfalso
        exact drlOn_congr _ (fun i hi => (e1 i (mem_filter.mp hi).2).symm.trans (h i hi)) h2
      · exfalso
        have h3 := drlOn_trans _ _ _ _ h2 h
        exact drlOn_congr _ (fun i hi => (e1 i (mem_filter.mp hi).2).symm) h3
    · exact Or.inr ⟨fun i hi => (e1 i hi).trans (e2 i hi), drlOn_trans _ _ _ _ h1 h2⟩
  · intro u v
    rcases drlOn_total (univ.filter (fun i : Fin n => i.val < k)) u v with h | h | h
    · exact Or.inl (Or.inl h)
    · have h' : ∀ i : Fin n, i.val < k → u i = v i := fun i hi => h i (mem_filter.mpr ⟨mem_univ i, hi⟩)
      rcases drlOn_total (univ.filter (fun i : Fin n => k ≤ i.val)) u v with g | g | g
      · exact Or.inl (Or.inr ⟨h', g⟩)
      · right; left
        funext i
        rcases Nat.lt_or_ge i.val k with hi | hi
        · exact h' i hi
        · exact g i (mem_filter.mpr ⟨mem_univ i, hi⟩)
      · exact Or.inr (Or.inr (Or.inr ⟨fun i hi => (h' i hi).symm, g⟩))
    · exact Or.inr (Or.inr (Or.inl h))
  · rintro u v w (h | ⟨e, h⟩)
    · exact Or.inl (drlOn_add _ _ _ _ h)
    · exact Or.inr ⟨fun i hi => by simp only [Pi.add_apply, e i hi], drlOn_add _ _ _ _ h⟩
  · intro u hu
    by_cases h : ∃ i ∈ univ.filter (fun i : Fin n => i.val < k), u i ≠ 0
    · exact Or.inl (drlOn_zero _ _ h)
    · push Not at h
      right
      refine ⟨fun i hi => (h i (mem_filter.mpr ⟨mem_univ i, hi⟩)).symm, drlOn_zero _ _ ?_⟩
      by_contra hc
      push Not at hc
      apply hu
      funext i
      rcases Nat.lt_or_ge i.val k with hi | hi
      · exact h i (mem_filter.mpr ⟨mem_univ i, hi⟩)
      · exact hc i (mem_filter.mpr ⟨mem_univ i, hi⟩)

theorem lex_admissible : Admissible (n := n) Lex := by
  apply admissible_of_total
  · rintro u ⟨i, h, -⟩; omega
  · rintro u v w ⟨i, h1, h2⟩ ⟨j, h3, h4⟩
    rcases lt_trichotomy i j with h | h | h
    · exact ⟨i, by rw [← h4 i h]; exact h1, fun k hk => (h2 k hk).trans (h4 k (hk.trans h))⟩
    · subst h
      exact ⟨i, h1.trans h3, fun k hk => (h2 k hk).trans (h4 k hk)⟩
    · exact ⟨j, by rw [h2 j h]; exact h3, fun k hk => (h2 k (hk.trans h)).trans (h4 k hk)⟩
  · intro u v
    by_cases heq : u = v
    · exact Or.inr (Or.inl heq)
    · have hne : (univ.filter (fun i => u i ≠ v i)).Nonempty := by
        by_contra hc
        rw [not_nonempty_iff_eq_empty, filter_eq_empty_iff] at hc
        exact heq (funext fun i => by simpa using hc (mem_univ i))
      set i := (univ.filter (fun i => u i ≠ v i)).min' hne with hi
      have hmem := mem_filter.mp (min'_mem _ hne)
      rw [← hi] at hmem
      have hbot : ∀ j < i, u j = v j := by
        intro j hij
        by_contra hc
        have := min'_le (univ.filter (fun i => u i ≠ v i)) j (mem_filter.mpr ⟨mem_univ j, hc⟩)
        rw [← hi] at this
        omega
      rcases lt_or_gt_of_ne hmem.2 with h2 | h2
      · exact Or.inl ⟨i, h2, hbot⟩
      · exact Or.inr (Or.inr ⟨i, h2, fun j hj => (hbot j hj).symm⟩)
  · rintro u v w ⟨i, h1, h2⟩
    exact ⟨i, by simp only [Pi.add_apply]; omega, fun j hj => by simp only [Pi.add_apply, h2 j hj]⟩
  · intro u hu
    have hne : (univ.filter (fun i => u i ≠ 0)).Nonempty := by
      by_contra hc
      rw [not_nonempty_iff_eq_empty, filter_eq_empty_iff] at hc
      exact hu (funext fun i => by simpa using hc (mem_univ i))
    set i := (univ.filter (fun i => u i ≠ 0)).min' hne with hi
    have hmem := mem_filter.mp (min'_mem _ hne)
    rw [← hi] at hmem
    refine ⟨i, Nat.pos_of_ne_zero hmem.2, fun j hij => ?_⟩
    by_contra hc
    have := min'_le (univ.filter (fun i => u i ≠ 0)) j
      (mem_filter.mpr ⟨mem_univ j, fun h => hc h.symm⟩)
    rw [← hi] at this
    omega

/-! ### The loops -/

theorem scanDown_spec (a b : Nat → Nat) (stop : Nat) : ∀ top, stop ≤ top →
    stop ≤ scanDown a b stop top ∧ scanDown a b stop top ≤ top ∧
    (∀ j, scanDown a b stop top < j → j ≤ top → a j = b j) ∧
    (stop < scanDown a b stop top → a (scanDown a b stop top) ≠ b (scanDown a b stop top))
  | 0, h => by
    simp only [scanDown]
    refine ⟨h, le_refl _, fun j h1 h2 => by omega, fun h1 => by omega⟩
  | top + 1, h => by
    unfold scanDown
    split_ifs with hc
    · obtain ⟨h1, h2, h3, h4⟩ := scanDown_spec a b stop top (by omega)
      refine ⟨h1, by omega, fun j hj1 hj2 => ?_, h4⟩
      rcases Nat.lt_or_ge top j with hj | hj
      · have : j = top + 1 := by omega
        subst this
        exact hc.2
      · exact h3 j hj1 hj
    · refine ⟨h, le_refl _, fun j h1 h2 => by omega, fun h1 h2 => hc ⟨h1, h2⟩⟩

theorem scanDown_symm (a b : Nat → Nat) (stop : Nat) : ∀ top,
    scanDown a b stop top = scanDown b a stop top
  | 0 => rfl
  | top + 1 => by
    unfold scanDown
    rw [scanDown_symm a b stop top]
    simp only [eq_comm]

/-- Variables `lo ≤ i < hi` stored at positions `i + o`; scanning from the last one down to either
the first one or an entry just before, where both arrays agree. -/
theorem scan_block (a b : Nat → Nat) (u v : Fin n → ℕ) (lo hi o stop : Nat) (hn : hi ≤ n)
    (ha : ∀ i : Fin n, lo ≤ i.val → i.val < hi → a (i.val + o) = u i)
    (hb : ∀ i : Fin n, lo ≤ i.val → i.val < hi → b (i.val + o) = v i)
    (htop : stop ≤ hi - 1 + o)
    (hlohi : lo ≤ hi)
    (hstop : (stop = lo + o ∧ lo < hi) ∨ (stop + 1 = lo + o ∧ a stop = b stop ∧ 0 < hi)) :
    let r := scanDown a b stop (hi - 1 + o)
    (a r < b r ↔ ∃ i : Fin n, (lo ≤ i.val ∧ i.val < hi) ∧ u i < v i ∧
      ∀ j : Fin n, (lo ≤ j.val ∧ j.val < hi) → i < j → v j = u j) := by
  intro r
  obtain ⟨h1, h2, h3, h4⟩ := scanDown_spec a b stop (hi - 1 + o) htop
  change stop ≤ r at h1
  change r ≤ _ at h2
  constructor
  · intro hlt
    have hro : lo + o ≤ r := by
      rcases hstop with h | ⟨h, he, -⟩
      · omega
      · by_contra hc
        have : r = stop := by omega
        rw [this] at hlt
        omega
    have hi' : r - o < hi := by omega
    refine ⟨⟨r - o, by omega⟩, ⟨by simp only; omega, hi'⟩, ?_, ?_⟩
    · have e1 := ha ⟨r - o, by omega⟩ (by simp only; omega) hi'
      have e2 := hb ⟨r - o, by omega⟩ (by simp only; omega) hi'
      simp only at e1 e2
      rw [← e1, ← e2, show r - o + o = r by omega]
      exact hlt
    · intro j hj hij
      have hij' : r - o < j.val := hij
      rw [← ha j hj.1 hj.2, ← hb j hj.1 hj.2]
      exact (h3 _ (by change r < _; omega) (by omega)).symm
  · rintro ⟨i, ⟨hi1, hi2⟩, hlt, heq⟩
    have hri : r = i.val + o := by
      rcases lt_trichotomy r (i.val + o) with h | h | h
      · have := h3 (i.val + o) h (by omega)
        rw [ha i hi1 hi2, hb i hi1 hi2] at this
        omega
      · exact h
      · exfalso
        have hs : stop < r := by
          rcases hstop with h' | h' <;> omega
        apply h4 hs
        change a r = b r
        have hr' : r - o < n := by omega
        have := heq ⟨r - o, hr'⟩ (by simp only; omega) (by
          rw [Fin.lt_def]; simp only; omega)
        rw [← ha _ (by simp only; omega) (by simp only; omega),
          ← hb _ (by simp only; omega) (by simp only; omega)] at this
        simp only [show r - o + o = r by omega] at this
        exact this.symm
    rw [hri, ha i hi1 hi2, hb i hi1 hi2]
    exact hlt

theorem scanUp_spec (a b : Nat → Nat) (last i : Nat) (h : i ≤ last) :
    i ≤ scanUp a b last i ∧ scanUp a b last i ≤ last ∧
    (∀ j, i ≤ j → j < scanUp a b last i → a j = b j) ∧
    (scanUp a b last i < last → a (scanUp a b last i) ≠ b (scanUp a b last i)) := by
  fun_induction scanUp a b last i with
  | case1 i hc ih =>
    obtain ⟨h1, h2, h3, h4⟩ := ih (by omega)
    refine ⟨by omega, h2, fun j hj1 hj2 => ?_, h4⟩
    rcases Nat.lt_or_ge i j with hj | hj
    · exact h3 j hj hj2
    · have : j = i := by omega
      subst this
      exact hc.2
  | case2 i hc => exact ⟨le_refl _, h, fun j h1 h2 => by omega, fun h1 h2 => hc ⟨h1, h2⟩⟩

theorem scanUp_symm (a b : Nat → Nat) (last i : Nat) :
    scanUp a b last i = scanUp b a last i := by
  fun_induction scanUp a b last i with
  | case1 i hc ih => rw [ih]; conv_rhs => unfold scanUp
                     rw [if_pos ⟨hc.1, hc.2.symm⟩]
  | case2 i hc => unfold scanUp; rw [if_neg (fun h => hc ⟨h.1, h.2.symm⟩)]

theorem scanUp_lt (a b : Nat → Nat) (u v : Fin n → ℕ) (hn : 1 ≤ n)
    (ha : ∀ i : Fin n, a (i.val + 1) = u i) (hb : ∀ i : Fin n, b (i.val + 1) = v i) :
    (a (scanUp a b n 1) < b (scanUp a b n 1) ↔ Lex u v) := by
  obtain ⟨h1, h2, h3, h4⟩ := scanUp_spec a b n 1 hn
  set r := scanUp a b n 1
  constructor
  · intro h
    refine ⟨⟨r - 1, by omega⟩, ?_, fun j hj => ?_⟩
    · rw [← ha, ← hb]; simp only [show r - 1 + 1 = r by omega]; exact h
    · have hj' : j.val < r - 1 := hj
      rw [← ha, ← hb]; exact h3 _ (by omega) (by omega)
  · rintro ⟨i, hlt, heq⟩
    have hri : r = i.val + 1 := by
      rcases lt_trichotomy r (i.val + 1) with h | h | h
      · exfalso
        apply h4 (by omega)
        have hr' : r - 1 < n := by omega
        have := heq ⟨r - 1, hr'⟩ (by rw [Fin.lt_def]; simp only; omega)
        rw [← ha, ← hb] at this
        simpa only [show r - 1 + 1 = r by omega] using this
      · exact h
      · have := h3 (i.val + 1) (by omega) h
        rw [ha, hb] at this; omega
    rw [hri, ha, hb]; exact hlt

/-! ### The exponent vector written by `set_exponent_vector` -/

/-- Input exponents as an array. -/
def ext (u : Fin n → ℕ) (i : Nat) : Nat := if h : i < n then u ⟨i, h⟩ else 0

theorem ext_val (u : Fin n → ℕ) (i : Fin n) : ext u i.val = u i := by
  simp [ext]

theorem loop1 (u ev : Nat → Nat) : ∀ k, ev 0 = 0 →
    (∀ i < k, ((List.range k).foldl (step1 u) ev) (i + 1) = u i % 65536) ∧
    ((List.range k).foldl (step1 u) ev) 0 = (∑ i ∈ range k, u i) % 65536 ∧
    (∀ j, k < j → ((List.range k).foldl (step1 u) ev) j = ev j)
  | 0, h => by simp [h]
  | k + 1, h => by
    obtain ⟨h1, h2, h3⟩ := loop1 u ev k h
    rw [List.range_succ, List.foldl_append]
    set e := (List.range k).foldl (step1 u) ev
    simp only [List.foldl_cons, List.foldl_nil, step1]
    refine ⟨fun i hi => ?_, ?_, fun j hj => ?_⟩
    · rw [Function.update_of_ne (by omega)]
      by_cases hik : i = k
      · subst hik; rw [Function.update_self]
      · rw [Function.update_of_ne (by omega), h1 i (by omega)]
    · rw [Function.update_self, Function.update_self, Function.update_of_ne (by omega), h2,
        sum_range_succ]
      omega
    · rw [Function.update_of_ne (by omega), Function.update_of_ne (by omega), h3 j (by omega)]

theorem loop2 (nev : Nat) (u ev : Nat → Nat) : ∀ k, ev (ebl nev) = 0 →
    (∀ i, nev ≤ i → i < nev + k →
      ((List.range' nev k).foldl (step2 nev u) ev) (i + off nev) = u i % 65536) ∧
    ((List.range' nev k).foldl (step2 nev u) ev) (ebl nev) = (∑ i ∈ Ico nev (nev + k), u i) % 65536 ∧
    (∀ j, (j < ebl nev ∨ nev + k + off nev ≤ j) → ((List.range' nev k).foldl (step2 nev u) ev) j = ev j)
  | 0, h => by
    refine ⟨fun i h1 h2 => by omega, by simp [h], by simp⟩
  | k + 1, h => by
    obtain ⟨h1, h2, h3⟩ := loop2 nev u ev k h
    rw [List.range'_concat, List.foldl_append]
    set e := (List.range' nev k).foldl (step2 nev u) ev
    have hoff : ∀ i, nev ≤ i → i + off nev ≠ ebl nev ∧ ebl nev < i + off nev := by
      intro i hi; unfold off ebl; split_ifs <;> omega
    simp only [List.foldl_cons, List.foldl_nil, step2, Nat.one_mul]
    refine ⟨fun i hi1 hi2 => ?_, ?_, fun j hj => ?_⟩
    · rw [Function.update_of_ne (hoff i hi1).1]
      by_cases hik : i = nev + k
      · subst hik; rw [Function.update_self]
      · rw [Function.update_of_ne (by omega), h1 i hi1 (by omega)]
    · rw [Function.update_self, Function.update_self,
        Function.update_of_ne (Ne.symm (hoff (nev + k) (by omega)).1), h2,
        ← Nat.add_assoc, sum_Ico_succ_top (by omega)]
      omega
    · have := hoff (nev + k) (by omega)
      rw [Function.update_of_ne (by omega), Function.update_of_ne (by omega), h3 j (by omega)]

theorem setEv_spec (nv nev : Nat) (hle : nev ≤ nv) (u ev0 : Nat → Nat) :
    (∀ i, i < nev → setEv nv nev u ev0 (i + 1) = u i % 65536) ∧
    (∀ i, nev ≤ i → i < nv → setEv nv nev u ev0 (i + off nev) = u i % 65536) ∧
    (setEv nv nev u ev0 (ebl nev) = (∑ i ∈ Ico nev nv, u i) % 65536) ∧
    (0 < nev → setEv nv nev u ev0 0 = (∑ i ∈ range nev, u i) % 65536) := by
  set ev := Function.update (Function.update ev0 0 0) (ebl nev) 0 with hev
  have e0 : ev 0 = 0 := by
    by_cases h : ebl nev = 0
    · rw [hev, h, Function.update_self]
    · rw [hev, Function.update_of_ne (Ne.symm h), Function.update_self]
  obtain ⟨h1, h2, h3⟩ := loop1 u ev nev e0
  set e := (List.range nev).foldl (step1 u) ev with he
  have e1 : e (ebl nev) = 0 := by
    by_cases h : nev = 0
    · rw [he, h]; simp only [List.range_zero, List.foldl_nil, ebl, if_pos]; exact e0
    · rw [h3 _ (by unfold ebl; rw [if_neg h]; omega), hev, Function.update_self]
  obtain ⟨g1, g2, g3⟩ := loop2 nev u e (nv - nev) e1
  rw [show nev + (nv - nev) = nv by omega] at g1 g2
  have hset : setEv nv nev u ev0 = (List.range' nev (nv - nev)).foldl (step2 nev u) e := rfl
  rw [hset]
  refine ⟨fun i hi => ?_, g1, g2, fun h0 => ?_⟩
  · rw [g3 _ (Or.inl (by unfold ebl; rw [if_neg (by omega)]; omega)), h1 i hi]
  · rw [g3 _ (Or.inl (by unfold ebl; rw [if_neg (by omega)]; omega)), h2]

theorem sum_ext_Ico (u : Fin n → ℕ) (lo hi : Nat) (hn : hi ≤ n) :
    ∑ i ∈ Ico lo hi, ext u i = ∑ i ∈ univ.filter (fun i : Fin n => lo ≤ i.val ∧ i.val < hi), u i := by
  symm
  refine sum_bij (fun i _ => i.val) ?_ ?_ ?_ ?_
  · intro i hi; rw [mem_filter] at hi; exact mem_Ico.mpr hi.2
  · intro i _ j _ h; exact Fin.ext h
  · intro i hi'
    rw [mem_Ico] at hi'
    exact ⟨⟨i, by omega⟩, mem_filter.mpr ⟨mem_univ _, hi'⟩, rfl⟩
  · intro i _; exact (ext_val u i).symm

theorem le_total (S : Finset (Fin n)) (u : Fin n → ℕ) : ∑ i ∈ S, u i ≤ ∑ i, u i :=
  sum_le_sum_of_subset (subset_univ S)

theorem le_total' (u : Fin n → ℕ) (i : Fin n) : u i ≤ ∑ i, u i :=
  single_le_sum (f := u) (fun _ _ => Nat.zero_le _) (mem_univ i)

/-- The stored vector of a monomial of total degree below 2^16, without elimination block. -/
theorem setEv_drl (u : Fin n → ℕ) (hu : ∑ i, u i < 65536) (ev0 : Nat → Nat) :
    setEv n 0 (ext u) ev0 0 = ∑ i, u i ∧
    ∀ i : Fin n, setEv n 0 (ext u) ev0 (i.val + 1) = u i := by
  obtain ⟨-, h1, h2, -⟩ := setEv_spec n 0 (by omega) (ext u) ev0
  constructor
  · have : ebl 0 = 0 := rfl
    rw [this, sum_ext_Ico u 0 n (le_refl _)] at h2
    rw [h2]
    have : (univ.filter (fun i : Fin n => 0 ≤ i.val ∧ i.val < n)) = univ := by
      ext i; simp
    rw [this, Nat.mod_eq_of_lt hu]
  · intro i
    have := h1 i.val (Nat.zero_le _) i.isLt
    rw [ext_val] at this
    rw [show off 0 = 1 from rfl] at this
    rw [this, Nat.mod_eq_of_lt (lt_of_le_of_lt (le_total' u i) hu)]

/-- The stored vector of a monomial of total degree below 2^16, with an elimination block. -/
theorem setEv_be (k : Nat) (hk : 0 < k) (hkn : k ≤ n) (u : Fin n → ℕ) (hu : ∑ i, u i < 65536)
    (ev0 : Nat → Nat) :
    setEv n k (ext u) ev0 0 = ∑ i ∈ univ.filter (fun i : Fin n => i.val < k), u i ∧
    setEv n k (ext u) ev0 (k + 1) = ∑ i ∈ univ.filter (fun i : Fin n => k ≤ i.val), u i ∧
    (∀ i : Fin n, i.val < k → setEv n k (ext u) ev0 (i.val + 1) = u i) ∧
    (∀ i : Fin n, k ≤ i.val → setEv n k (ext u) ev0 (i.val + 2) = u i) := by
  obtain ⟨h0, h1, h2, h3⟩ := setEv_spec n k hkn (ext u) ev0
  have hebl : ebl k = k + 1 := by unfold ebl; rw [if_neg (by omega)]
  have hoff : off k = 2 := by unfold off; rw [hebl]; omega
  have hlt : ∀ i, u i % 65536 = u i := fun i =>
    Nat.mod_eq_of_lt (lt_of_le_of_lt (le_total' u i) hu)
  refine ⟨?_, ?_, fun i hi => ?_, fun i hi => ?_⟩
  · rw [h3 hk, range_eq_Ico, sum_ext_Ico u 0 k hkn]
    have : (univ.filter (fun i : Fin n => 0 ≤ i.val ∧ i.val < k)) =
        univ.filter (fun i : Fin n => i.val < k) := by
      ext i; simp
    rw [this, Nat.mod_eq_of_lt (lt_of_le_of_lt (le_total _ u) hu)]
  · rw [hebl, sum_ext_Ico u k n (le_refl _)] at h2
    have : (univ.filter (fun i : Fin n => k ≤ i.val ∧ i.val < n)) =
        univ.filter (fun i : Fin n => k ≤ i.val) := by
      ext i; simp
    rw [h2, this, Nat.mod_eq_of_lt (lt_of_le_of_lt (le_total _ u) hu)]
  · rw [h0 _ hi, ext_val, hlt]
  · have := h1 _ hi i.isLt
    rw [hoff] at this
    rw [this, ext_val, hlt]

/-! ### Refinement -/

theorem cmpDrl_pos (hn : 1 ≤ n) (u v : Fin n → ℕ) (a b : Nat → Nat)
    (ha0 : a 0 = ∑ i, u i) (hb0 : b 0 = ∑ i, v i)
    (ha : ∀ i : Fin n, a (i.val + 1) = u i) (hb : ∀ i : Fin n, b (i.val + 1) = v i) :
    (0 < cmpDrl (n + 1) a b ↔ Drl v u) ∧ (cmpDrl (n + 1) a b < 0 ↔ Drl u v) := by
  have hs := scan_block a b u v 0 n 1 1 (le_refl _) (fun i _ _ => ha i) (fun i _ _ => hb i)
    (by omega) (by omega) (Or.inl ⟨rfl, by omega⟩)
  have hs' := scan_block b a v u 0 n 1 1 (le_refl _) (fun i _ _ => hb i) (fun i _ _ => ha i)
    (by omega) (by omega) (Or.inl ⟨rfl, by omega⟩)
  rw [scanDown_symm b a] at hs'
  rw [show n - 1 + 1 = n by omega] at hs hs'
  simp only [Nat.zero_le, true_and, Fin.is_lt, forall_const] at hs hs'
  unfold cmpDrl Drl DrlOn
  rw [ha0, hb0, Nat.add_sub_cancel]
  simp only [mem_univ, true_and, forall_const]
  set r := scanDown a b 1 n
  split_ifs with h1 h2
  · constructor
    · constructor
      · intro _; exact Or.inl h1
      · intro _; norm_num
    · constructor
      · intro h; norm_num at h
      · rintro (h | ⟨h, -⟩) <;> omega
  · constructor
    · constructor
      · intro h; norm_num at h
      · rintro (h | ⟨h, -⟩) <;> omega
    · constructor
      · intro _; exact Or.inl (by omega)
      · intro _; norm_num
  · rw [not_not] at h2
    rw [h2]
    simp only [lt_irrefl, false_or, true_and]
    rw [← hs, ← hs']
    constructor <;> omega

theorem cmpBe_pos (k : Nat) (hk : 0 < k) (hkn : k ≤ n) (u v : Fin n → ℕ) (a b : Nat → Nat)
    (ha0 : a 0 = ∑ i ∈ univ.filter (fun i : Fin n => i.val < k), u i)
    (hb0 : b 0 = ∑ i ∈ univ.filter (fun i : Fin n => i.val < k), v i)
    (ha1 : a (k + 1) = ∑ i ∈ univ.filter (fun i : Fin n => k ≤ i.val), u i)
    (hb1 : b (k + 1) = ∑ i ∈ univ.filter (fun i : Fin n => k ≤ i.val), v i)
    (ha : ∀ i : Fin n, i.val < k → a (i.val + 1) = u i)
    (hb : ∀ i : Fin n, i.val < k → b (i.val + 1) = v i)
    (ha' : ∀ i : Fin n, k ≤ i.val → a (i.val + 2) = u i)
    (hb' : ∀ i : Fin n, k ≤ i.val → b (i.val + 2) = v i) :
    (0 < cmpBe (n + 2) (k + 1) a b ↔ Be k v u) := by
  have hs := scan_block a b u v 0 k 1 1 hkn (fun i _ h => ha i h) (fun i _ h => hb i h)
    (by omega) (by omega) (Or.inl ⟨rfl, by omega⟩)
  have hs' := scan_block b a v u 0 k 1 1 hkn (fun i _ h => hb i h) (fun i _ h => ha i h)
    (by omega) (by omega) (Or.inl ⟨rfl, by omega⟩)
  rw [scanDown_symm b a] at hs'
  rw [show k - 1 + 1 = k by omega] at hs hs'
  simp only [Nat.zero_le, true_and] at hs hs'
  unfold cmpBe Be
  have htot := drlOn_total (univ.filter (fun i : Fin n => i.val < k)) u v
  rw [Nat.add_sub_cancel, show n + 2 - 1 = n - 1 + 2 by omega]
  set r := scanDown a b 1 k
  have hD : ∀ u v : Fin n → ℕ, DrlOn (univ.filter (fun i : Fin n => i.val < k)) v u ↔
      (∑ i ∈ univ.filter (fun i : Fin n => i.val < k), v i <
        ∑ i ∈ univ.filter (fun i : Fin n => i.val < k), u i ∨
      (∑ i ∈ univ.filter (fun i : Fin n => i.val < k), v i =
        ∑ i ∈ univ.filter (fun i : Fin n => i.val < k), u i ∧
        ∃ i : Fin n, i.val < k ∧ u i < v i ∧ ∀ j : Fin n, j.val < k → i < j → v j = u j)) := by
    intro u v
    unfold DrlOn
    simp only [mem_filter, mem_univ, true_and]
  have hsum : (∀ i : Fin n, i.val < k → v i = u i) → b 0 = a 0 := by
    intro h
    rw [ha0, hb0]
    exact sum_congr rfl (fun i hi => h i (mem_filter.mp hi).2)
  by_cases h1 : a 0 > b 0
  · rw [if_pos h1, hD, ← ha0, ← hb0]
    simp [h1]
  rw [if_neg h1]
  by_cases h2 : a 0 ≠ b 0
  · rw [if_pos h2, hD, ← ha0, ← hb0]
    constructor
    · intro h; norm_num at h
    · rintro ((h | ⟨h, -⟩) | ⟨h, -⟩)
      · omega
      · omega
      · exact absurd (hsum h) (by omega)
  rw [if_neg h2]
  rw [not_not] at h2
  simp only
  by_cases h3 : (b r : Int) - a r ≠ 0
  · rw [if_pos h3, hD, ← ha0, ← hb0, ← hs]
    simp only [h2, lt_irrefl, false_or, true_and]
    constructor
    · intro h; left; omega
    · rintro (h | ⟨h, -⟩)
      · omega
      · exfalso
        rcases Nat.lt_or_ge (a r) (b r) with h4 | h4
        · obtain ⟨i, hi, hlt, -⟩ := hs.mp h4
          have := h i hi; omega
        · obtain ⟨i, hi, hlt, -⟩ := hs'.mp (by omega)
          have := h i hi; omega
  rw [if_neg h3]
  rw [not_not] at h3
  have heq : ∀ i : Fin n, i.val < k → v i = u i := by
    rcases htot with h | h | h
    · rw [hD, ← ha0, ← hb0, ← hs'] at h
      rcases h with h | h <;> omega
    · exact fun i hi => (h i (mem_filter.mpr ⟨mem_univ i, hi⟩)).symm
    · rw [hD, ← ha0, ← hb0, ← hs] at h
      rcases h with h | h <;> omega
  have hno : ¬ DrlOn (univ.filter (fun i : Fin n => i.val < k)) v u :=
    drlOn_congr _ (fun i hi => heq i (mem_filter.mp hi).2)
  simp only [hno, false_or]
  rw [and_iff_right heq]
  have hE : DrlOn (univ.filter (fun i : Fin n => k ≤ i.val)) v u ↔
      (b (k + 1) < a (k + 1) ∨
      (b (k + 1) = a (k + 1) ∧
        ∃ i : Fin n, k ≤ i.val ∧ u i < v i ∧ ∀ j : Fin n, k ≤ j.val → i < j → v j = u j)) := by
    unfold DrlOn
    simp only [mem_filter, mem_univ, true_and]
    rw [ha1, hb1]
  rw [hE]
  by_cases h4 : a (k + 1) > b (k + 1)
  · rw [if_pos h4]; simp [h4]
  rw [if_neg h4]
  by_cases h5 : a (k + 1) ≠ b (k + 1)
  · rw [if_pos h5]
    constructor
    · intro h; norm_num at h
    · rintro (h | ⟨h, -⟩) <;> omega
  rw [if_neg h5]
  rw [not_not] at h5
  have ht := scan_block a b u v k n 2 (k + 1) (le_refl _) (fun i h _ => ha' i h)
    (fun i h _ => hb' i h) (by omega) (by omega) (Or.inr ⟨rfl, h5, by omega⟩)
  simp only [Fin.is_lt, and_true] at ht
  rw [← ht, h5]
  simp only [lt_irrefl, false_or, true_and]
  omega

theorem cmpBe_symm (evl ebl : Nat) (a b : Nat → Nat) : cmpBe evl ebl b a = - cmpBe evl ebl a b := by
  unfold cmpBe
  rw [scanDown_symm b a, scanDown_symm b a]
  simp only
  split_ifs <;> omega

theorem cmpDrl_symm (evl : Nat) (a b : Nat → Nat) : cmpDrl evl b a = - cmpDrl evl a b := by
  unfold cmpDrl
  rw [scanDown_symm b a]
  simp only
  split_ifs <;> omega

theorem cmpLex_symm (evl : Nat) (a b : Nat → Nat) : cmpLex evl b a = - cmpLex evl a b := by
  unfold cmpLex
  rw [scanUp_symm b a]
  simp only
  omega

theorem cmpPivotsDrl_eq (evl ia ib : Nat) (a b : Nat → Nat) (h : ia = ib) :
    cmpPivotsDrl evl ia ib a b = - cmpDrl evl a b := by
  unfold cmpPivotsDrl cmpDrl
  rw [if_neg (by simpa using h)]
  simp only
  split_ifs <;> omega

theorem cmpPivotsBe_eq (evl ebl ia ib : Nat) (a b : Nat → Nat) (h : ia = ib) :
    cmpPivotsBe evl ebl ia ib a b = - cmpBe evl ebl a b := by
  unfold cmpPivotsBe cmpBe
  rw [if_neg (by simpa using h)]
  simp only
  split_ifs <;> omega

theorem cmpPivotsLex_eq (evl ia ib : Nat) (a b : Nat → Nat) (h : ia = ib) :
    cmpPivotsLex evl ia ib a b = - cmpLex evl a b := by
  unfold cmpPivotsLex cmpLex
  rw [if_neg (by simpa using h)]
  simp only
  omega

theorem initialInputCmpDrl_eq (evl : Nat) (a b : Nat → Nat) :
    initialInputCmpDrl evl a b = cmpDrl evl a b := by
  unfold initialInputCmpDrl cmpDrl
  split_ifs <;> first | rfl | omega

theorem initialGensCmpDrl_eq (evl : Nat) (a b : Nat → Nat) :
    initialGensCmpDrl evl a b = - cmpDrl evl a b := by
  unfold initialGensCmpDrl cmpDrl
  simp only
  split_ifs <;> omega

end Verif.Orders
