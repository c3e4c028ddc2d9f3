import Verif.F4Sem

/-! Invariants of the selection of pairs and of symbolic preprocessing. -/

namespace Verif.F4

open Verif.Pairs Verif.Spec Verif.RowReduce Verif.Orders

variable {n : Nat}

/-! ### Insertion of monomials -/

theorem addAll_cons (ms : List (Mon n)) (t : Mon n × Nat) (f : Poly n) :
    addAll ms (t :: f) = addAll (if t.1 ∈ ms then ms else ms ++ [t.1]) f := rfl

theorem addAll_prefix (f : Poly n) : ∀ ms : List (Mon n), ms <+: addAll ms f := by
  induction f with
  | nil => intro ms; exact List.prefix_rfl
  | cons t f ih =>
    intro ms
    rw [addAll_cons]
    refine List.IsPrefix.trans ?_ (ih _)
    split_ifs
    · exact List.prefix_rfl
    · exact List.prefix_append _ _

theorem mem_addAll (f : Poly n) : ∀ (ms : List (Mon n)) (m : Mon n), m ∈ addAll ms f ↔ m ∈ ms ∨ ∃ t ∈ f, t.1 = m := by
  induction f with
  | nil => intro ms m; simp [addAll]
  | cons t f ih =>
    intro ms m
    rw [addAll_cons, ih]
    split_ifs with h
    · simp only [List.mem_cons, exists_eq_or_imp]
      constructor
      · rintro (h1 | h1)
        · exact Or.inl h1
        · exact Or.inr (Or.inr h1)
      · rintro (h1 | h1 | h1)
        · exact Or.inl h1
        · exact Or.inl (h1 ▸ h)
        · exact Or.inr h1
    · simp only [List.mem_append, List.mem_cons, List.not_mem_nil, or_false, exists_eq_or_imp]
      rw [or_assoc, eq_comm (a := m)]

theorem addAll_nodup (f : Poly n) : ∀ ms : List (Mon n), ms.Nodup → (addAll ms f).Nodup := by
  induction f with
  | nil => intro ms h; exact h
  | cons t f ih =>
    intro ms h
    rw [addAll_cons]
    apply ih
    split_ifs with h1
    · exact h
    · rw [List.nodup_append]
      refine ⟨h, List.nodup_singleton _, ?_⟩
      intro a ha b hb
      rw [List.mem_singleton] at hb
      rintro rfl
      exact h1 (hb ▸ ha)

/-! ### The invariant -/

/-- Invariant of the symbolic phase. -/
structure SymInv (els : List (Poly n)) (s : Sym n) : Prop where
  nodup : s.ms.Nodup
  rows : ∀ r, r ∈ s.rr ∨ r ∈ s.tr → r.gen < els.length ∧ ∀ t ∈ rowPoly els r, t.1 ∈ s.ms
  mark : ∀ m, m ∈ s.mark ↔ ∃ r ∈ s.rr, lead (rowPoly els r) = m
  leads : (s.rr.map fun r => lead (rowPoly els r)).Nodup
  trLead : ∀ r ∈ s.tr, lead (rowPoly els r) ∈ s.mark

theorem lead_mkRow {O : OKind} {p : Nat} {els : List (Poly n)} (hok : ∀ f ∈ els, PolyOk O p f) {g : Nat}
    (hg : g < els.length) {l : Mon n} (hl : lead (els.getD g []) ≤ l) : lead (rowPoly els (mkRow els l g)) = l := by
  have h0 : els.getD g [] ∈ els := by
    rw [List.getD_eq_getElem _ _ hg]
    exact List.getElem_mem hg
  unfold rowPoly
  simp only [mkRow]
  rw [lead_mulPoly _ (hok _ h0).ne_nil]
  funext i
  have : lead (els.getD g []) i ≤ l i := hl i
  simp only [Pi.add_apply, Pi.sub_apply]
  omega

theorem rowPoly_ok {O : OKind} {p : Nat} {els : List (Poly n)} (hok : ∀ f ∈ els, PolyOk O p f) {r : MRow n}
    (hg : r.gen < els.length) : PolyOk O p (rowPoly els r) := by
  have h0 : els.getD r.gen [] ∈ els := by
    rw [List.getD_eq_getElem _ _ hg]
    exact List.getElem_mem hg
  exact (hok _ h0).mul _

/-- Adding a reducer row with a new leading monomial. -/
theorem SymInv.addRr {els : List (Poly n)} {s : Sym n} (h : SymInv els s) {r : MRow n} {m : Mon n}
    (hg : r.gen < els.length) (hl : lead (rowPoly els r) = m) (hm : m ∉ s.mark) :
    SymInv els { s with ms := addAll s.ms (rowPoly els r), mark := m :: s.mark, rr := s.rr ++ [r] } := by
  refine ⟨addAll_nodup _ _ h.nodup, ?_, ?_, ?_, ?_⟩
  · intro x hx
    simp only [List.mem_append, List.mem_singleton] at hx
    have : (x ∈ s.rr ∨ x ∈ s.tr) ∨ x = r := by tauto
    rcases this with hx | rfl
    · refine ⟨(h.rows x hx).1, fun t ht => ?_⟩
      rw [mem_addAll]
      exact Or.inl ((h.rows x hx).2 t ht)
    · refine ⟨hg, fun t ht => ?_⟩
      rw [mem_addAll]
      exact Or.inr ⟨t, ht, rfl⟩
  · intro x
    simp only [List.mem_cons, List.mem_append, List.not_mem_nil, or_false]
    rw [h.mark]
    constructor
    · rintro (rfl | ⟨r', h1, h2⟩)
      · exact ⟨r, Or.inr rfl, hl⟩
      · exact ⟨r', Or.inl h1, h2⟩
    · rintro ⟨r', h1 | rfl, h2⟩
      · exact Or.inr ⟨r', h1, h2⟩
      · exact Or.inl (h2 ▸ hl)
  · rw [List.map_append, List.nodup_append]
    refine ⟨h.leads, List.nodup_singleton _, ?_⟩
    intro a ha b hb
    simp only [List.map_cons, List.map_nil, List.mem_singleton] at hb
    rw [List.mem_map] at ha
    rintro rfl
    apply hm
    rw [h.mark]
    obtain ⟨r', h1, h2⟩ := ha
    exact ⟨r', h1, by rw [h2, hb, hl]⟩
  · intro x hx
    exact List.mem_cons_of_mem _ (h.trLead x hx)

/-- Adding a row to be reduced whose leading monomial is marked. -/
theorem SymInv.addTr {els : List (Poly n)} {s : Sym n} (h : SymInv els s) {l : Mon n} {g : Nat}
    (hg : g < els.length) (hl : lead (rowPoly els (mkRow els l g)) = l) (hm : l ∈ s.mark) :
    SymInv els (addTr els l s g) := by
  refine ⟨addAll_nodup _ _ h.nodup, ?_, ?_, h.leads, ?_⟩
  · intro x hx
    simp only [F4.addTr, List.mem_append, List.mem_singleton] at hx
    have : (x ∈ s.rr ∨ x ∈ s.tr) ∨ x = mkRow els l g := by tauto
    rcases this with hx | rfl
    · refine ⟨(h.rows x hx).1, fun t ht => ?_⟩
      simp only [F4.addTr]
      rw [mem_addAll]
      exact Or.inl ((h.rows x hx).2 t ht)
    · refine ⟨hg, fun t ht => ?_⟩
      simp only [F4.addTr]
      rw [mem_addAll]
      exact Or.inr ⟨t, ht, rfl⟩
  · intro x
    simp only [F4.addTr, List.mem_cons]
    rw [hl, ← h.mark]
    constructor
    · rintro (rfl | h1)
      · exact hm
      · exact h1
    · exact Or.inr
  · intro x hx
    simp only [F4.addTr, List.mem_append, List.mem_singleton] at hx ⊢
    rcases hx with hx | rfl
    · exact List.mem_cons_of_mem _ (h.trLead x hx)
    · rw [hl]; exact List.mem_cons_self

theorem addTr_fold {O : OKind} {p : Nat} {els : List (Poly n)} (hok : ∀ f ∈ els, PolyOk O p f) {l : Mon n} :
    ∀ (gs : List Nat) (s : Sym n), SymInv els s → l ∈ s.mark →
    (∀ g ∈ gs, g < els.length ∧ lead (els.getD g []) ≤ l) →
    SymInv els (gs.foldl (F4.addTr els l) s) ∧ (gs.foldl (F4.addTr els l) s).rr = s.rr ∧
    (∀ m, m ∈ (gs.foldl (F4.addTr els l) s).mark ↔ m ∈ s.mark) ∧
    (∀ r ∈ s.tr, r ∈ (gs.foldl (F4.addTr els l) s).tr) ∧
    (∀ g ∈ gs, mkRow els l g ∈ (gs.foldl (F4.addTr els l) s).tr) := by
  intro gs
  induction gs with
  | nil => intro s h _ _; exact ⟨h, rfl, fun _ => Iff.rfl, fun _ h => h, by simp⟩
  | cons g gs ih =>
    intro s h hl hgs
    rw [List.foldl_cons]
    have hg := hgs g List.mem_cons_self
    have hlead := lead_mkRow hok hg.1 hg.2
    obtain ⟨h1, h2, h3, h4, h5⟩ := ih (F4.addTr els l s g) (h.addTr hg.1 hlead hl)
      (List.mem_cons_of_mem _ hl) (fun g' hg' => hgs g' (List.mem_cons_of_mem _ hg'))
    refine ⟨h1, h2, ?_, ?_, ?_⟩
    · intro m
      rw [h3]
      simp only [F4.addTr, List.mem_cons, hlead]
      constructor
      · rintro (rfl | h)
        · exact hl
        · exact h
      · exact Or.inr
    · intro r hr
      exact h4 r (List.mem_append_left _ hr)
    · intro g' hg'
      rcases List.mem_cons.mp hg' with rfl | hg'
      · exact h4 _ (List.mem_append_right _ (List.mem_singleton_self _))
      · exact h5 g' hg'

theorem mem_skipEq (g : Nat) : ∀ (gs : List Nat) (prev : Nat), g ∈ prev :: skipEq prev gs ↔ g ∈ prev :: gs := by
  intro gs
  induction gs with
  | nil => intro prev; rfl
  | cons a gs ih =>
    intro prev
    unfold skipEq
    split_ifs with h
    · rw [ih, h]; simp
    · have := ih a
      simp only [List.mem_cons] at this ⊢
      rw [this]

theorem mem_classGens (cls : List (Pair n)) (g : Nat) :
    g ∈ classGens cls ↔ ∃ p ∈ cls, g = p.gen1 ∨ g = p.gen2 := by
  have h1 : g ∈ (cls.flatMap fun p => [p.gen1, p.gen2]).insertionSort (· ≤ ·) ↔ ∃ p ∈ cls, g = p.gen1 ∨ g = p.gen2 := by
    rw [List.mem_insertionSort]
    simp
  rw [← h1]
  unfold classGens
  generalize (cls.flatMap fun p => [p.gen1, p.gen2]).insertionSort (· ≤ ·) = L
  cases L with
  | nil => rfl
  | cons a L => exact mem_skipEq g L a

theorem addClass_inv {O : OKind} {p : Nat} {els : List (Poly n)} (hok : ∀ f ∈ els, PolyOk O p f) {l : Mon n}
    {cls : List (Pair n)} (hcls : ∀ q ∈ cls, q.gen1 < els.length ∧ q.gen2 < els.length ∧
      lead (els.getD q.gen1 []) ≤ l ∧ lead (els.getD q.gen2 []) ≤ l) {s : Sym n} (h : SymInv els s) (hl : l ∉ s.mark) :
    SymInv els (addClass els cls l s) ∧
    (∀ m, m ∈ (addClass els cls l s).mark → m ∈ s.mark ∨ m = l) ∧
    (∀ r, r ∈ s.rr ∨ r ∈ s.tr → r ∈ (addClass els cls l s).rr ∨ r ∈ (addClass els cls l s).tr) ∧
    (∀ q ∈ cls, ∀ g, g = q.gen1 ∨ g = q.gen2 →
      mkRow els l g ∈ (addClass els cls l s).rr ∨ mkRow els l g ∈ (addClass els cls l s).tr) := by
  have hmem := mem_classGens cls
  have hg : ∀ g ∈ classGens cls, g < els.length ∧ lead (els.getD g []) ≤ l := by
    intro g hg
    obtain ⟨q, hq, rfl | rfl⟩ := (hmem g).mp hg
    · exact ⟨(hcls q hq).1, (hcls q hq).2.2.1⟩
    · exact ⟨(hcls q hq).2.1, (hcls q hq).2.2.2⟩
  unfold addClass
  generalize classGens cls = L at hmem hg
  cases L with
  | nil =>
    refine ⟨h, fun m hm => Or.inl hm, fun r hr => hr, ?_⟩
    intro q hq g hgq
    exact absurd ((hmem g).mpr ⟨q, hq, hgq⟩) (by simp)
  | cons a L =>
    have ha := hg a List.mem_cons_self
    have hlead := lead_mkRow hok ha.1 ha.2
    have h1 := h.addRr (r := mkRow els l a) ha.1 hlead hl
    simp only
    rw [hlead]
    obtain ⟨h2, h3, h4, h5, h6⟩ := addTr_fold hok L _ h1 List.mem_cons_self
      (fun g hgL => hg g (List.mem_cons_of_mem _ hgL))
    refine ⟨h2, ?_, ?_, ?_⟩
    · intro m hm
      rw [h4] at hm
      rcases List.mem_cons.mp hm with rfl | hm
      · exact Or.inr rfl
      · exact Or.inl hm
    · rintro r (hr | hr)
      · left; rw [h3]; exact List.mem_append_left _ hr
      · right; exact h5 r hr
    · intro q hq g hgq
      rcases List.mem_cons.mp ((hmem g).mpr ⟨q, hq, hgq⟩) with rfl | hgL
      · left; rw [h3]; exact List.mem_append_right _ (List.mem_singleton_self _)
      · right; exact h6 g hgL

/-- The pairs are sorted in such a way that those with the same lcm are consecutive. -/
def Grouped (l : List (Pair n)) : Prop := ∃ klt : Mon n → Mon n → Prop, (∀ u, ¬ klt u u) ∧
  (∀ u v, klt u v ∨ u = v ∨ klt v u) ∧ l.Pairwise fun a b => ¬ klt b.lcm a.lcm

theorem Grouped.tail {p : Pair n} {l : List (Pair n)} (h : Grouped (p :: l)) :
    Grouped (l.dropWhile fun q => decide (q.lcm = p.lcm)) ∧
    ∀ q ∈ l.dropWhile (fun q => decide (q.lcm = p.lcm)), q.lcm ≠ p.lcm := by
  obtain ⟨klt, h1, h2, h3⟩ := h
  rw [List.pairwise_cons] at h3
  have hsub := (List.dropWhile_suffix (l := l) fun q => decide (q.lcm = p.lcm)).sublist
  have hpw := h3.2.sublist hsub
  refine ⟨⟨klt, h1, h2, hpw⟩, ?_⟩
  generalize hD : l.dropWhile (fun q => decide (q.lcm = p.lcm)) = D at hsub hpw ⊢
  cases D with
  | nil => simp
  | cons a D =>
    have ha : a.lcm ≠ p.lcm := by
      have := List.head_dropWhile_not (l := l) (fun q : Pair n => decide (q.lcm = p.lcm)) (by rw [hD]; simp)
      simp only [hD, List.head_cons, decide_eq_false_iff_not] at this
      exact this
    have hpa : klt p.lcm a.lcm := by
      rcases h2 p.lcm a.lcm with h | h | h
      · exact h
      · exact absurd h.symm ha
      · exact absurd h (h3.1 a (hsub.subset List.mem_cons_self))
    intro q hq
    rcases List.mem_cons.mp hq with rfl | hq
    · exact ha
    · intro he
      rw [List.pairwise_cons] at hpw
      apply hpw.1 q hq
      rw [he]
      exact hpa

theorem addPairs_inv {O : OKind} {p : Nat} {els : List (Poly n)} (hok : ∀ f ∈ els, PolyOk O p f) :
    ∀ (k : Nat) (l : List (Pair n)) (s : Sym n), l.length ≤ k → Grouped l →
    (∀ q ∈ l, q.gen1 < els.length ∧ q.gen2 < els.length ∧
      q.lcm = lead (els.getD q.gen1 []) ⊔ lead (els.getD q.gen2 [])) →
    SymInv els s → (∀ q ∈ l, q.lcm ∉ s.mark) →
    SymInv els (addPairs els l s) ∧
    (∀ r, r ∈ s.rr ∨ r ∈ s.tr → r ∈ (addPairs els l s).rr ∨ r ∈ (addPairs els l s).tr) ∧
    (∀ q ∈ l, ∀ g, g = q.gen1 ∨ g = q.gen2 →
      mkRow els q.lcm g ∈ (addPairs els l s).rr ∨ mkRow els q.lcm g ∈ (addPairs els l s).tr) := by
  intro k
  induction k with
  | zero =>
    intro l s hk _ _ h _
    have : l = [] := List.length_eq_zero_iff.mp (by omega)
    subst this
    rw [addPairs]
    exact ⟨h, fun r hr => hr, by simp⟩
  | succ k ih =>
    intro l s hk hgr hl h hmark
    cases l with
    | nil => rw [addPairs]; exact ⟨h, fun r hr => hr, by simp⟩
    | cons a l =>
      rw [addPairs]
      have hsub := (List.dropWhile_suffix (l := l) fun q => decide (q.lcm = a.lcm))
      have htw : ∀ q ∈ a :: l.takeWhile (fun q => decide (q.lcm = a.lcm)), q ∈ a :: l ∧ q.lcm = a.lcm := by
        intro q hq
        rcases List.mem_cons.mp hq with rfl | hq
        · exact ⟨List.mem_cons_self, rfl⟩
        · refine ⟨List.mem_cons_of_mem _ ((List.takeWhile_prefix _).subset hq), ?_⟩
          simpa using List.all_eq_true.mp List.all_takeWhile q hq
      obtain ⟨g1, g2⟩ := hgr.tail
      have hc : ∀ q ∈ a :: l.takeWhile (fun q => decide (q.lcm = a.lcm)), q.gen1 < els.length ∧ q.gen2 < els.length ∧
          lead (els.getD q.gen1 []) ≤ a.lcm ∧ lead (els.getD q.gen2 []) ≤ a.lcm := by
        intro q hq
        obtain ⟨h1, h2⟩ := htw q hq
        obtain ⟨h3, h4, h5⟩ := hl q h1
        rw [← h2, h5]
        exact ⟨h3, h4, le_sup_left, le_sup_right⟩
      obtain ⟨b1, b2, b3, b4⟩ := addClass_inv hok hc h (hmark a List.mem_cons_self)
      have hlen := hsub.length_le
      simp only [List.length_cons] at hk
      obtain ⟨c1, c2, c3⟩ := ih (l.dropWhile fun q => decide (q.lcm = a.lcm))
        (addClass els (a :: l.takeWhile fun q => decide (q.lcm = a.lcm)) a.lcm s) (by omega) g1
        (fun q hq => hl q (List.mem_cons_of_mem _ (hsub.subset hq))) b1 (by
          intro q hq hm
          rcases b2 _ hm with hm | hm
          · exact hmark q (List.mem_cons_of_mem _ (hsub.subset hq)) hm
          · exact g2 q hq hm)
      refine ⟨c1, fun r hr => c2 r (b3 r hr), ?_⟩
      intro q hq g hg
      have hq' : q ∈ (a :: l.takeWhile fun q => decide (q.lcm = a.lcm)) ∨
          q ∈ l.dropWhile fun q => decide (q.lcm = a.lcm) := by
        rcases List.mem_cons.mp hq with rfl | hq
        · exact Or.inl List.mem_cons_self
        · rw [← List.takeWhile_append_dropWhile (p := fun q => decide (q.lcm = a.lcm)) (l := l), List.mem_append] at hq
          rcases hq with hq | hq
          · exact Or.inl (List.mem_cons_of_mem _ hq)
          · exact Or.inr hq
      rcases hq' with hq' | hq'
      · have := b4 q hq' g hg
        rw [(htw q hq').2]
        exact c2 _ this
      · exact c3 q hq' g hg

/-! ### Symbolic preprocessing -/

/-- Loop invariant: before monomial `i`. -/
structure LoopInv (els : List (Poly n)) (lmps : List Nat) (old i : Nat) (s : Sym n) : Prop where
  inv : SymInv els s
  loc : ∀ m ∈ s.mark, ∃ j, (j < old ∨ j < i) ∧ s.ms[j]? = some m
  past : ∀ j m, j < i → s.ms[j]? = some m → m ∈ s.mark ∨ ∀ k ∈ lmps, ¬ lead (els.getD k []) ≤ m

theorem symStep_inv {O : OKind} {p : Nat} {els : List (Poly n)} (hok : ∀ f ∈ els, PolyOk O p f)
    {lmps : List Nat} (hlm : ∀ k ∈ lmps, k < els.length) {old i : Nat} {s : Sym n} (h : LoopInv els lmps old i s)
    {m : Mon n} (hm : s.ms[i]? = some m) (hn : ¬ (i < old ∧ m ∈ s.mark)) :
    LoopInv els lmps old (i + 1) (symStep els lmps m s) ∧ (symStep els lmps m s).tr = s.tr ∧
      s.rr <+: (symStep els lmps m s).rr ∧ s.ms <+: (symStep els lmps m s).ms ∧
      ∀ x ∈ (symStep els lmps m s).ms, x ∈ s.ms ∨ ∃ k ∈ lmps, lead (els.getD k []) ≤ m ∧
        findReducer els lmps m = some k ∧ ∃ t ∈ rowPoly els (mkRow els m k), t.1 = x := by
  have hmk : m ∉ s.mark := by
    intro hmark
    obtain ⟨j, hj, hjm⟩ := h.loc m hmark
    have : j = i := by
      obtain ⟨a1, a2⟩ := List.getElem?_eq_some_iff.mp hjm
      obtain ⟨b1, b2⟩ := List.getElem?_eq_some_iff.mp hm
      exact (List.Nodup.getElem_inj_iff h.inv.nodup).mp (a2.trans b2.symm)
    subst this
    exact hn ⟨by omega, hmark⟩
  unfold symStep
  generalize hf : findReducer els lmps m = res
  cases res with
  | none =>
    refine ⟨⟨h.inv, ?_, ?_⟩, rfl, List.prefix_rfl, List.prefix_rfl, fun x hx => Or.inl hx⟩
    · intro x hx
      obtain ⟨j, h1, h2⟩ := h.loc x hx
      exact ⟨j, by omega, h2⟩
    · intro j x hj hx
      by_cases hji : j < i
      · exact h.past j x hji hx
      · have : j = i := by omega
        subst this
        rw [hm] at hx
        obtain rfl := Option.some.inj hx
        right
        intro k hk hle
        have := List.find?_eq_none.mp hf k hk
        exact this (decide_eq_true hle)
  | some k =>
    have hk := List.mem_of_find?_eq_some hf
    have hle : lead (els.getD k []) ≤ m := by simpa using List.find?_some hf
    have hlead := lead_mkRow hok (hlm k hk) hle
    have hpre := addAll_prefix (rowPoly els (mkRow els m k)) s.ms
    have hget : ∀ (j : Nat) (x : Mon n), s.ms[j]? = some x → (addAll s.ms (rowPoly els (mkRow els m k)))[j]? = some x := by
      intro j x hx
      obtain ⟨t, ht⟩ := hpre
      obtain ⟨a1, a2⟩ := List.getElem?_eq_some_iff.mp hx
      rw [← ht, List.getElem?_append_left a1]
      exact hx
    refine ⟨⟨h.inv.addRr (hlm k hk) hlead hmk, ?_, ?_⟩, rfl, List.prefix_append _ _, hpre, ?_⟩
    · intro x hx
      rcases List.mem_cons.mp hx with rfl | hx
      · exact ⟨i, by omega, hget _ _ hm⟩
      · obtain ⟨j, h1, h2⟩ := h.loc x hx
        exact ⟨j, by omega, hget _ _ h2⟩
    · intro j x hj hx
      have hlen : i < s.ms.length := (List.getElem?_eq_some_iff.mp hm).1
      have hx' : s.ms[j]? = some x := by
        obtain ⟨t, ht⟩ := hpre
        simp only at hx
        rw [← ht, List.getElem?_append_left (by omega)] at hx
        exact hx
      by_cases hji : j < i
      · rcases h.past j x hji hx' with h1 | h1
        · exact Or.inl (List.mem_cons_of_mem _ h1)
        · exact Or.inr h1
      · have : j = i := by omega
        subst this
        rw [hm] at hx'
        obtain rfl := Option.some.inj hx'
        exact Or.inl List.mem_cons_self
    · intro x hx
      simp only at hx
      rw [mem_addAll] at hx
      rcases hx with hx | hx
      · exact Or.inl hx
      · exact Or.inr ⟨k, hk, hle, rfl, hx⟩

theorem symLoop_inv {O : OKind} {p : Nat} {els : List (Poly n)} (hok : ∀ f ∈ els, PolyOk O p f)
    {lmps : List Nat} (hlm : ∀ k ∈ lmps, k < els.length) {old : Nat} : ∀ (fuel i : Nat) (s s' : Sym n),
    LoopInv els lmps old i s → symLoop els lmps old fuel i s = some s' →
    SymInv els s' ∧ s'.tr = s.tr ∧ s.rr <+: s'.rr ∧
      ∀ m ∈ s'.ms, m ∈ s'.mark ∨ ∀ k ∈ lmps, ¬ lead (els.getD k []) ≤ m := by
  intro fuel
  induction fuel with
  | zero =>
    intro i s s' h hs
    unfold symLoop at hs
    generalize hm : s.ms[i]? = mo at hs
    cases mo with
    | some m => simp at hs
    | none =>
      simp only [Option.some.injEq] at hs
      subst hs
      refine ⟨h.inv, rfl, List.prefix_rfl, ?_⟩
      intro m hmm
      obtain ⟨j, hj⟩ := List.mem_iff_getElem?.mp hmm
      refine h.past j m ?_ hj
      have := (List.getElem?_eq_some_iff.mp hj).1
      have := List.getElem?_eq_none_iff.mp hm
      omega
  | succ fuel ih =>
    intro i s s' h hs
    unfold symLoop at hs
    generalize hm : s.ms[i]? = mo at hs
    cases mo with
    | none =>
      simp only [Option.some.injEq] at hs
      subst hs
      refine ⟨h.inv, rfl, List.prefix_rfl, ?_⟩
      intro m hmm
      obtain ⟨j, hj⟩ := List.mem_iff_getElem?.mp hmm
      refine h.past j m ?_ hj
      have := (List.getElem?_eq_some_iff.mp hj).1
      have := List.getElem?_eq_none_iff.mp hm
      omega
    | some m =>
      simp only at hs
      split_ifs at hs with hc
      · refine ih (i + 1) s s' ⟨h.inv, ?_, ?_⟩ hs
        · intro x hx
          obtain ⟨j, h1, h2⟩ := h.loc x hx
          exact ⟨j, by omega, h2⟩
        · intro j x hj hx
          by_cases hji : j < i
          · exact h.past j x hji hx
          · have : j = i := by omega
            subst this
            rw [hm] at hx
            obtain rfl := Option.some.inj hx
            exact Or.inl hc.2
      · obtain ⟨h1, h2, h3, h4, h5⟩ := symStep_inv hok hlm h hm hc
        obtain ⟨a1, a2, a3, a4⟩ := ih (i + 1) _ s' h1 hs
        exact ⟨a1, a2.trans h2, h3.trans a3, a4⟩

/-- A finite set of monomials which contains `m` and all monomials symbolic preprocessing reaches from it. -/
theorem closure_exists {O : OKind} {p : Nat} {els : List (Poly n)} (hok : ∀ f ∈ els, PolyOk O p f)
    {lmps : List Nat} (hlm : ∀ k ∈ lmps, k < els.length) (m : Mon n) :
    ∃ C : Finset (Mon n), m ∈ C ∧ ∀ u ∈ C, ∀ k ∈ lmps, lead (els.getD k []) ≤ u →
      findReducer els lmps u = some k → ∀ t ∈ rowPoly els (mkRow els u k), t.1 ∈ C := by
  induction m using O.adm.wf.induction with
  | _ m ih =>
    classical
    generalize hf : findReducer els lmps m = res
    cases res with
    | none =>
      refine ⟨{m}, Finset.mem_singleton_self _, ?_⟩
      intro u hu k _ _ hk
      rw [Finset.mem_singleton] at hu
      rw [hu, hf] at hk
      simp at hk
    | some k =>
      have hk := List.mem_of_find?_eq_some hf
      have hle : lead (els.getD k []) ≤ m := by simpa using List.find?_some hf
      have hlead := lead_mkRow hok (hlm k hk) hle
      have hrow := rowPoly_ok hok (r := mkRow els m k) (hlm k hk)
      have key : ∀ L : Poly n, (∀ t ∈ L, t.1 = m ∨ O.lt t.1 m) → ∃ C : Finset (Mon n),
          (∀ t ∈ L, t.1 = m ∨ t.1 ∈ C) ∧ ∀ u ∈ C, ∀ k ∈ lmps, lead (els.getD k []) ≤ u →
            findReducer els lmps u = some k → ∀ t ∈ rowPoly els (mkRow els u k), t.1 ∈ C := by
        intro L
        induction L with
        | nil => intro _; exact ⟨∅, by simp, by simp⟩
        | cons a L ihL =>
          intro hL
          obtain ⟨C, h1, h2⟩ := ihL fun t ht => hL t (List.mem_cons_of_mem _ ht)
          rcases hL a List.mem_cons_self with ha | ha
          · refine ⟨C, ?_, h2⟩
            intro t ht
            rcases List.mem_cons.mp ht with rfl | ht
            · exact Or.inl ha
            · exact h1 t ht
          · obtain ⟨D, d1, d2⟩ := ih a.1 ha
            refine ⟨C ∪ D, ?_, ?_⟩
            · intro t ht
              rcases List.mem_cons.mp ht with rfl | ht
              · exact Or.inr (Finset.mem_union_right _ d1)
              · rcases h1 t ht with h | h
                · exact Or.inl h
                · exact Or.inr (Finset.mem_union_left _ h)
            · intro u hu k' hk' hle' hf' t ht
              rcases Finset.mem_union.mp hu with hu | hu
              · exact Finset.mem_union_left _ (h2 u hu k' hk' hle' hf' t ht)
              · exact Finset.mem_union_right _ (d2 u hu k' hk' hle' hf' t ht)
      obtain ⟨C, h1, h2⟩ := key (rowPoly els (mkRow els m k)) (by
        have := hrow.terms
        rw [hlead] at this
        exact this)
      refine ⟨insert m C, Finset.mem_insert_self _ _, ?_⟩
      intro u hu k' hk' hle' hf' t ht
      rcases Finset.mem_insert.mp hu with rfl | hu
      · rw [hf] at hf'
        obtain rfl := Option.some.inj hf'
        rw [Finset.mem_insert]
        exact h1 t ht
      · exact Finset.mem_insert_of_mem (h2 u hu k' hk' hle' hf' t ht)

/-- Symbolic preprocessing terminates. -/
theorem symLoop_terminates {O : OKind} {p : Nat} {els : List (Poly n)} (hok : ∀ f ∈ els, PolyOk O p f)
    {lmps : List Nat} (hlm : ∀ k ∈ lmps, k < els.length) {old : Nat} {s : Sym n}
    (h : LoopInv els lmps old 0 s) : ∃ fuel s', symLoop els lmps old fuel 0 s = some s' := by
  classical
  have hC : ∃ C : Finset (Mon n), (∀ m ∈ s.ms, m ∈ C) ∧ ∀ u ∈ C, ∀ k ∈ lmps, lead (els.getD k []) ≤ u →
      findReducer els lmps u = some k → ∀ t ∈ rowPoly els (mkRow els u k), t.1 ∈ C := by
    have : ∀ L : List (Mon n), ∃ C : Finset (Mon n), (∀ m ∈ L, m ∈ C) ∧ ∀ u ∈ C, ∀ k ∈ lmps,
        lead (els.getD k []) ≤ u →
        findReducer els lmps u = some k → ∀ t ∈ rowPoly els (mkRow els u k), t.1 ∈ C := by
      intro L
      induction L with
      | nil => exact ⟨∅, by simp, by simp⟩
      | cons a L ih =>
        obtain ⟨C, h1, h2⟩ := ih
        obtain ⟨D, d1, d2⟩ := closure_exists hok hlm a
        refine ⟨C ∪ D, ?_, ?_⟩
        · intro m hm
          rcases List.mem_cons.mp hm with rfl | hm
          · exact Finset.mem_union_right _ d1
          · exact Finset.mem_union_left _ (h1 m hm)
        · intro u hu k' hk' hle' hf' t ht
          rcases Finset.mem_union.mp hu with hu | hu
          · exact Finset.mem_union_left _ (h2 u hu k' hk' hle' hf' t ht)
          · exact Finset.mem_union_right _ (d2 u hu k' hk' hle' hf' t ht)
    exact this s.ms
  obtain ⟨C, c1, c2⟩ := hC
  have key : ∀ (k i : Nat) (s : Sym n), LoopInv els lmps old i s → (∀ m ∈ s.ms, m ∈ C) → C.card + 1 ≤ i + k →
      ∃ s', symLoop els lmps old k i s = some s' := by
    intro k
    induction k with
    | zero =>
      intro i s h hs hk
      unfold symLoop
      have hlen : s.ms.length ≤ C.card := by
        rw [← List.toFinset_card_of_nodup h.inv.nodup]
        apply Finset.card_le_card
        intro m hm
        exact hs m (List.mem_toFinset.mp hm)
      rw [List.getElem?_eq_none_iff.mpr (by omega)]
      exact ⟨s, rfl⟩
    | succ k ih =>
      intro i s h hs hk
      unfold symLoop
      generalize hm : s.ms[i]? = mo
      cases mo with
      | none => exact ⟨s, rfl⟩
      | some m =>
        simp only
        split_ifs with hc
        · refine ih (i + 1) s ⟨h.inv, ?_, ?_⟩ hs (by omega)
          · intro x hx
            obtain ⟨j, h1, h2⟩ := h.loc x hx
            exact ⟨j, by omega, h2⟩
          · intro j x hj hx
            by_cases hji : j < i
            · exact h.past j x hji hx
            · have : j = i := by omega
              subst this
              rw [hm] at hx
              obtain rfl := Option.some.inj hx
              exact Or.inl hc.2
        · obtain ⟨h1, h2, h3, h4, h5⟩ := symStep_inv hok hlm h hm hc
          refine ih (i + 1) _ h1 ?_ (by omega)
          intro x hx
          rcases h5 x hx with hx | ⟨k', hk', hle, hf, t, ht, rfl⟩
          · exact hs x hx
          · exact c2 m (hs m (List.mem_of_getElem? hm)) k' hk' hle hf t ht
  exact ⟨C.card + 1, key _ 0 s h c1 (by omega)⟩

/-- The state after the selection is a correct start for the loop. -/
theorem loopInv_start {O : OKind} {p : Nat} {els : List (Poly n)} (hok : ∀ f ∈ els, PolyOk O p f) {lmps : List Nat}
    {s : Sym n} (h : SymInv els s) : LoopInv els lmps s.ms.length 0 s := by
  refine ⟨h, ?_, by omega⟩
  intro m hm
  obtain ⟨r, hr, rfl⟩ := (h.mark m).mp hm
  obtain ⟨h1, h2⟩ := h.rows r (Or.inl hr)
  have := h2 _ (rowPoly_ok hok h1).lead_mem
  obtain ⟨j, hj⟩ := List.mem_iff_getElem?.mp this
  exact ⟨j, Or.inl (List.getElem?_eq_some_iff.mp hj).1, hj⟩

end Verif.F4
