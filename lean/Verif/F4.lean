import Mathlib.RingTheory.MvPolynomial.Ideal
import Mathlib.RingTheory.Polynomial.Basic
import Verif.F4Matrix

/-! The main loop of F4: invariant, correctness, progress and termination. -/

namespace Verif.F4

open Verif.Pairs Verif.Spec Verif.RowReduce Verif.Echelon Verif.Props Verif.Orders Verif.Groebner MvPolynomial

variable {n : Nat}

/-- The basis elements as polynomials. -/
noncomputable def polys (p : Nat) (els : List (Poly n)) (k : Nat) : MvPolynomial (Fin n) (ZMod p) :=
  toMv p (els.getD k [])

/-- Indices of the basis. -/
def idx (els : List (Poly n)) : Set Nat := { k | k < els.length }

theorem polys_image (p : Nat) (els : List (Poly n)) : polys p els '' idx els = { g | ∃ f ∈ els, g = toMv p f } := by
  ext g
  constructor
  · rintro ⟨k, hk, rfl⟩
    refine ⟨_, List.getElem_mem hk, ?_⟩
    rw [polys, List.getD_eq_getElem _ _ hk]
  · rintro ⟨f, hf, rfl⟩
    obtain ⟨k, hk, rfl⟩ := List.mem_iff_getElem.mp hf
    refine ⟨k, hk, ?_⟩
    rw [polys, List.getD_eq_getElem _ _ hk]

theorem getD_append_left (els N : List (Poly n)) {k : Nat} (hk : k < els.length) :
    (els ++ N).getD k [] = els.getD k [] := by
  rw [List.getD_eq_getElem _ _ hk, List.getD_eq_getElem _ _ (by rw [List.length_append]; omega), List.getElem_append_left]

theorem getD_mem {els : List (Poly n)} {k : Nat} (hk : k < els.length) : els.getD k [] ∈ els := by
  rw [List.getD_eq_getElem _ _ hk]
  exact List.getElem_mem hk

/-! ### Coverage and representations -/

theorem cov_congr {t t' : Nat → Mon n} {bl : Nat} (ht : ∀ i < bl, t i = t' i) {S S' : Nat → Nat → Prop}
    (hS : ∀ i j, S i j → Cov t' bl S' i j) {i j : Nat} (h : Cov t bl S i j) :
    i < bl → j < bl → Cov t' bl S' i j := by
  induction h with
  | base hs => intro _ _; exact hS _ _ hs
  | refl => intro _ _; exact .refl
  | symm _ ih => intro h1 h2; exact (ih h2 h1).symm
  | prod hi hj hc => intro _ _; exact .prod hi hj (by rw [← ht _ hi, ← ht _ hj]; exact hc)
  | chain k hk hl _ _ ih1 ih2 =>
    intro h1 h2
    exact .chain k hk (by rw [← ht _ h1, ← ht _ h2, ← ht _ hk]; exact hl) (ih1 h1 hk) (ih2 hk h2)

/-- The invariant of the pairs only depends on the elements seen so far. -/
theorem pinv_congr {E E' : Els n} {D D' : Nat → Nat → Prop} {s : PSt n} (hE : ∀ i < s.ld, E.lm i = E'.lm i)
    (hD : ∀ i j, D i j → D' i j) (h : PInv E D s) : PInv E' D' s := by
  refine ⟨?_, ?_, h.fresh, h.lmps, h.lo, h.nonred, ?_⟩
  · intro p hp
    obtain ⟨h1, h2, h3, h4⟩ := h.pair p hp
    refine ⟨h1, h2, ?_, h4⟩
    rw [← hE _ h2, ← hE _ (by omega)]
    exact h3
  · intro i hi hr
    obtain ⟨k, hk, h1, h2⟩ := h.red i hi hr
    exact ⟨k, hk, h1, by rw [← hE _ hk, ← hE _ hi]; exact h2⟩
  · intro i j hi hj
    refine cov_congr hE ?_ (h.cov i j hi hj) hi hj
    rintro a b (hab | hab)
    · exact .base (Or.inl hab)
    · exact .base (Or.inr (hD _ _ hab))

theorem cov_rep {O : OKind} {p : Nat} [Fact p.Prime] {els : List (Poly n)} (hok : ∀ f ∈ els, PolyOk O p f)
    {S : Nat → Nat → Prop} (hS : ∀ i j, S i j → Rep O.mo (idx els) (polys p els) i j) {t : Nat → Mon n}
    (ht : ∀ i < els.length, t i = lead (els.getD i [])) {i j : Nat} (h : Cov t els.length S i j) :
    i < els.length → j < els.length → Rep O.mo (idx els) (polys p els) i j := by
  have hdeg : ∀ i < els.length, O.mo.degree (polys p els i) = fs (t i) := by
    intro i hi
    rw [ht i hi]
    exact (hok _ (getD_mem hi)).degree
  induction h with
  | base hs => intro _ _; exact hS _ _ hs
  | refl => intro _ _; exact rep_self _
  | symm _ ih => intro h1 h2; exact rep_symm (ih h2 h1)
  | prod hi hj hc =>
    intro _ _
    refine rep_coprime hi hj (hok _ (getD_mem hi)).monic (hok _ (getD_mem hj)).monic ?_
    rw [hdeg _ hi, hdeg _ hj]
    ext x
    have := hc x
    simp only [Finsupp.sup_apply, fs_apply, Finsupp.add_apply]
    omega
  | chain k hk hl _ _ ih1 ih2 =>
    intro h1 h2
    refine rep_chain ?_ (ih1 h1 hk) (ih2 hk h2)
    rw [hdeg _ h1, hdeg _ h2, hdeg _ hk, ← fs_sup]
    exact hl

/-! ### The invariant of the main loop -/

structure Inv (C : Cfg n) [Fact C.p.Prime] (I : Ideal (MvPolynomial (Fin n) (ZMod C.p))) (s : St n) : Prop where
  ok : ∀ f ∈ s.els, PolyOk C.ord C.p f
  ld : s.pst.ld = s.els.length
  lo : s.pst.lo = s.els.length
  pinv : PInv (elsOf C.ord.nev s.els) (fun i j => i < s.els.length ∧ j < s.els.length ∧
    Rep C.ord.mo (idx s.els) (polys C.p s.els) i j) s.pst
  deg : C.ord.nev = 0 → ∀ p ∈ s.pst.ps, p.deg = tdeg p.lcm
  nodup : s.pst.lmps.Nodup
  ideal : Ideal.span { g | ∃ f ∈ s.els, g = toMv C.p f } = I
  const : s.const = true → ∃ f ∈ s.els, lead f = 0

theorem polyDeg_nonneg (nev : Nat) (f : Poly n) : 0 ≤ polyDeg nev f := by
  unfold polyDeg
  split_ifs <;> omega

theorem updateBasis_nodup {nev : Nat} {drl : Bool} {srt : List (Pair n) → List (Pair n)}
    {E : Els n} {s : PSt n} (h1 : s.lmps.Nodup) (h2 : ∀ i ∈ s.lmps, i < s.lo) (npivs : Nat) :
    (updateBasis nev drl srt E npivs s).lmps.Nodup := by
  have key : ∀ (k : Nat) (s : PSt n), ((insertPairs nev srt E)^[k] s).lmps = s.lmps ∧
      ((insertPairs nev srt E)^[k] s).lo = s.lo := by
    intro k
    induction k with
    | zero => intro s; exact ⟨rfl, rfl⟩
    | succ k ih => intro s; rw [Function.iterate_succ_apply]; exact ih _
  unfold updateBasis
  obtain ⟨e1, e2⟩ := key npivs s
  generalize (insertPairs nev srt E)^[npivs] s = s1 at e1 e2
  simp only
  rw [List.nodup_append]
  refine ⟨?_, List.Nodup.filter _ List.nodup_range', ?_⟩
  · split_ifs
    · exact List.Nodup.filter _ (e1 ▸ h1)
    · exact e1 ▸ h1
  · intro a ha b hb
    have : a ∈ s.lmps := by
      rw [← e1]
      split_ifs at ha
      · exact (List.mem_filter.mp ha).1
      · exact ha
    have := h2 a this
    have hb := (List.mem_range'_1.mp (List.mem_filter.mp hb).1).1
    omega

theorem inv_start {C : Cfg n} [Fact C.p.Prime] (hC : CfgOk C) {F : List (Poly n)} (hF : ∀ f ∈ F, PolyOk C.ord C.p f) :
    Inv C (Ideal.span { g | ∃ f ∈ F, g = toMv C.p f }) (start C F) := by
  have h0 : PInv (elsOf C.ord.nev F) (fun i j => i < F.length ∧ j < F.length ∧
      Rep C.ord.mo (idx F) (polys C.p F) i j) init0 := by
    refine ⟨?_, ?_, ?_, ?_, ?_, ?_, ?_⟩ <;> simp [init0]
  obtain ⟨h1, h2, h3⟩ := updateBasis_inv (nev := C.ord.nev) (drl := C.ord.mo0) hC.upd
    (fun i => polyDeg_nonneg _ _) h0 F.length
  refine ⟨hF, ?_, ?_, h1, ?_, updateBasis_nodup (by simp [init0]) (by simp [init0]) _, rfl, ?_⟩
  · rw [start, h2]; simp [init0]
  · rw [start, h3]; simp [init0]
  · intro h0
    simp only [start]
    rw [h0]
    exact updateBasis_deg hC.upd (by simp [init0]) _
  · intro h
    exact absurd h (by simp [start])

/-- All elements are reducible by the reducers. -/
theorem Inv.reducers {C : Cfg n} [Fact C.p.Prime] {I : Ideal (MvPolynomial (Fin n) (ZMod C.p))} {s : St n}
    (h : Inv C I s) {i : Nat} (hi : i < s.els.length) :
    ∃ k ∈ s.pst.lmps, lead (s.els.getD k []) ≤ lead (s.els.getD i []) := by
  by_cases hr : s.pst.red i = true
  · obtain ⟨k, hk, h1, h2⟩ := h.pinv.red i (by rw [h.ld]; exact hi) hr
    exact ⟨k, h.pinv.nonred k (by rw [h.lo, ← h.ld]; exact hk) h1, h2⟩
  · exact ⟨i, h.pinv.nonred i (by rw [h.lo]; exact hi) (by simpa using hr), le_rfl⟩

/-! ### Selected pairs -/

theorem select_append (mnsel : Nat) (stale : Mon n) (l : List (Pair n)) :
    (select mnsel stale l).1 ++ (select mnsel stale l).2 = l := List.take_append_drop _ _

/-- The selected pairs have the degree of the first pair. -/
theorem select_deg {mnsel : Nat} (hm : 0 < mnsel) (stale : Mon n) (a : Pair n) (l : List (Pair n)) :
    ∀ q ∈ (select mnsel stale (a :: l)).1, q.deg ≤ a.deg := by
  intro q hq
  apply npd_take a.deg (a :: l)
  have := (selCount_bounds mnsel hm stale a l).2
  exact (List.take_prefix_take_left this).subset hq

theorem select_grouped {C : Cfg n} (hC : CfgOk C) (stale : Mon n) (l : List (Pair n)) :
    Grouped (select C.mnsel stale (C.srtSel l)).1 := by
  have hs := hC.sorted l
  generalize C.srtSel l = L at hs
  have hsub : (select C.mnsel stale L).1.Sublist L := (List.take_prefix _ _).sublist
  generalize hO : C.ord = O at hs
  cases O with
  | drl =>
    exact ⟨Drl, drl_admissible.irrefl, drl_admissible.total, hs.sublist hsub⟩
  | lex =>
    refine ⟨fun u v => tdeg u < tdeg v ∨ (tdeg u = tdeg v ∧ Lex u v), ?_, ?_, hs.sublist hsub⟩
    · rintro u (h | h)
      · omega
      · exact lex_admissible.irrefl _ h.2
    · intro u v
      rcases lt_trichotomy (tdeg u) (tdeg v) with h | h | h
      · exact Or.inl (Or.inl h)
      · rcases lex_admissible.total u v with h1 | h1 | h1
        · exact Or.inl (Or.inr ⟨h, h1⟩)
        · exact Or.inr (Or.inl h1)
        · exact Or.inr (Or.inr (Or.inr ⟨h.symm, h1⟩))
      · exact Or.inr (Or.inr (Or.inl h))
  | be k =>
    refine ⟨Be k, (be_admissible k).irrefl, (be_admissible k).total, ?_⟩
    cases L with
    | nil => simp [select]
    | cons a L =>
      have hd : ∀ q ∈ (select C.mnsel stale (a :: L)).1, q.deg = a.deg := by
        intro q hq
        apply le_antisymm (select_deg hC.mnsel stale a L q hq)
        rw [List.pairwise_cons] at hs
        rcases List.mem_cons.mp (hsub.subset hq) with rfl | h
        · exact le_rfl
        · by_contra hlt
          exact hs.1 q h (Or.inl (by omega))
      refine List.Pairwise.imp_of_mem ?_ (hs.sublist hsub)
      intro x y hx hy hxy hlt
      exact hxy (Or.inr ⟨by rw [hd x hx, hd y hy], hlt⟩)

theorem select_pos {C : Cfg n} (hC : CfgOk C) (stale : Mon n) {l : List (Pair n)} (hl : l ≠ []) :
    (select C.mnsel stale (C.srtSel l)).2.length < l.length := by
  have hp := (hC.sel l).length_eq
  generalize C.srtSel l = L at hp
  cases L with
  | nil => rw [List.length_nil] at hp; exact absurd (List.length_eq_zero_iff.mp hp.symm) hl
  | cons a L =>
    have := (selCount_bounds C.mnsel hC.mnsel stale a L).1
    simp only [select, List.length_drop]
    rw [List.length_cons] at hp ⊢
    omega

/-! ### One round -/

/-- Facts about a round: the matrix, the rows of the selected pairs, the new elements. -/
structure RoundInv (C : Cfg n) (stale : Mon n) (s : St n) (sy : Sym n) (N : List (Poly n)) : Prop where
  inv : SymInv s.els sy
  rows : ∀ q ∈ (select C.mnsel stale (C.srtSel s.pst.ps)).1, ∀ g, g = q.gen1 ∨ g = q.gen2 →
    mkRow s.els q.lcm g ∈ sy.rr ∨ mkRow s.els q.lcm g ∈ sy.tr
  irred : ∀ m ∈ sy.ms, m ∈ sy.mark ∨ ∀ k ∈ s.pst.lmps, ¬ lead (s.els.getD k []) ≤ m
  new : NewOk C.ord C.p s.els sy N

theorem selSym_inv {C : Cfg n} [Fact C.p.Prime] (hC : CfgOk C) {I : Ideal (MvPolynomial (Fin n) (ZMod C.p))} {s : St n}
    (h : Inv C I s) (stale : Mon n) : SymInv s.els (selSym C stale s) ∧
    ∀ q ∈ (select C.mnsel stale (C.srtSel s.pst.ps)).1, ∀ g, g = q.gen1 ∨ g = q.gen2 →
      mkRow s.els q.lcm g ∈ (selSym C stale s).rr ∨ mkRow s.els q.lcm g ∈ (selSym C stale s).tr := by
  have hemp : SymInv s.els (⟨[], [], [], []⟩ : Sym n) := by
    refine ⟨?_, ?_, ?_, ?_, ?_⟩ <;> simp
  have := addPairs_inv h.ok _ (select C.mnsel stale (C.srtSel s.pst.ps)).1 ⟨[], [], [], []⟩ le_rfl
    (select_grouped hC stale _) (by
      intro q hq
      have hq' : q ∈ s.pst.ps := (hC.sel _).mem_iff.mp ((List.take_prefix _ _).subset hq)
      obtain ⟨h1, h2, h3, _⟩ := h.pinv.pair q hq'
      rw [h.ld] at h2
      exact ⟨by omega, h2, h3⟩) hemp (by simp)
  exact ⟨this.1, this.2.2⟩

theorem round_inv {C : Cfg n} [Fact C.p.Prime] (hC : CfgOk C) {I : Ideal (MvPolynomial (Fin n) (ZMod C.p))} {s s' : St n}
    (h : Inv C I s) (hr : Round C s s') : ¬ done s ∧ ∃ stale sy N, RoundInv C stale s sy N ∧ s' = next C stale s N := by
  obtain ⟨stale, fuel, sy, hcm, rrs, trs, R, hd, hsym, hcol, hrr, hsrt, htr, hla⟩ := hr
  refine ⟨hd, stale, sy, _, ?_, rfl⟩
  obtain ⟨h1, h2⟩ := selSym_inv hC h stale
  have hlm : ∀ k ∈ s.pst.lmps, k < s.els.length := fun k hk => by
    have := h.pinv.lmps k hk
    rw [h.lo] at this
    exact this
  obtain ⟨a1, a2, a3, a4⟩ := symLoop_inv h.ok hlm _ _ _ _ (loopInv_start h.ok h1) hsym
  have hM : MatInv C.ord C.p s.els sy hcm rrs trs := ⟨h.ok, a1, hcol, hrr, hsrt, htr⟩
  refine ⟨a1, ?_, a4, hM.newOk hC.prime hC.p31 hla⟩
  intro q hq g hg
  rcases h2 q hq g hg with h3 | h3
  · exact Or.inl (a3.subset h3)
  · exact Or.inr (a2 ▸ h3)

section
variable {C : Cfg n} [hprime : Fact C.p.Prime] {I : Ideal (MvPolynomial (Fin n) (ZMod C.p))} {s : St n} {stale : Mon n}
  {sy : Sym n} {N : List (Poly n)}

theorem polys_append (p : Nat) (els N : List (Poly n)) {k : Nat} (hk : k < els.length) :
    polys p (els ++ N) k = polys p els k := by
  unfold polys
  rw [getD_append_left _ _ hk]

theorem toMv_rowPoly (p : Nat) [Fact p.Prime] (els : List (Poly n)) (r : MRow n) :
    toMv p (rowPoly els r) = X' (fs r.mul) * polys p els r.gen := toMv_mulPoly _ _ _

/-- The S-polynomials of the selected pairs are represented by the extended basis. -/
theorem RoundInv.rep (h : Inv C I s) (hr : RoundInv C stale s sy N) {q : Pair n}
    (hq : q ∈ (select C.mnsel stale (C.srtSel s.pst.ps)).1) (hq' : q ∈ s.pst.ps) :
    Rep C.ord.mo (idx (s.els ++ N)) (polys C.p (s.els ++ N)) q.gen1 q.gen2 := by
  obtain ⟨h1, h2, h3, _⟩ := h.pinv.pair q hq'
  rw [h.ld] at h2
  have g1 : q.gen1 < s.els.length := by omega
  have h3' : q.lcm = lead (s.els.getD q.gen1 []) ⊔ lead (s.els.getD q.gen2 []) := h3
  have d1 : C.ord.mo.degree (polys C.p s.els q.gen1) = fs (lead (s.els.getD q.gen1 [])) := (h.ok _ (getD_mem g1)).degree
  have d2 : C.ord.mo.degree (polys C.p s.els q.gen2) = fs (lead (s.els.getD q.gen2 [])) := (h.ok _ (getD_mem h2)).degree
  unfold Rep
  rw [polys_append _ _ _ g1, polys_append _ _ _ h2, d1, d2, ← fs_sup, ← h3', ← fs_sub, ← fs_sub]
  have r1 := hr.rows q hq q.gen1 (Or.inl rfl)
  have r2 := hr.rows q hq q.gen2 (Or.inr rfl)
  have e1 : toMv C.p (rowPoly s.els (mkRow s.els q.lcm q.gen1)) =
    X' (fs (q.lcm - lead (s.els.getD q.gen1 []))) * polys C.p s.els q.gen1 := toMv_rowPoly _ _ _
  have e2 : toMv C.p (rowPoly s.els (mkRow s.els q.lcm q.gen2)) =
    X' (fs (q.lcm - lead (s.els.getD q.gen2 []))) * polys C.p s.els q.gen2 := toMv_rowPoly _ _ _
  rw [← e1, ← e2]
  have ok1 := rowPoly_ok (r := mkRow s.els q.lcm q.gen1) h.ok g1
  have ok2 := rowPoly_ok (r := mkRow s.els q.lcm q.gen2) h.ok h2
  have l1 := lead_mkRow h.ok g1 (l := q.lcm) (h3' ▸ le_sup_left)
  have l2 := lead_mkRow h.ok h2 (l := q.lcm) (h3' ▸ le_sup_right)
  have deg1 := ok1.degree
  have deg2 := ok2.degree
  rw [l1] at deg1
  rw [l2] at deg2
  have m1 := ok1.monic
  have m2 := ok2.monic
  set P1 := toMv C.p (rowPoly s.els (mkRow s.els q.lcm q.gen1))
  set P2 := toMv C.p (rowPoly s.els (mkRow s.els q.lcm q.gen2))
  set S : Set (MvPolynomial (Fin n) (ZMod C.p)) :=
    { g | ∃ r ∈ sy.rr, g = toMv C.p (rowPoly s.els r) } ∪ { g | ∃ f ∈ N, g = toMv C.p f } with hS
  have hrow : ∀ g, mkRow s.els q.lcm g ∈ sy.rr ∨ mkRow s.els q.lcm g ∈ sy.tr →
      toMv C.p (rowPoly s.els (mkRow s.els q.lcm g)) ∈ Submodule.span (ZMod C.p) S := by
    intro g hg
    rw [hS, hr.new.span]
    apply Submodule.subset_span
    rcases hg with hg | hg
    · exact Or.inl ⟨_, hg, rfl⟩
    · exact Or.inr ⟨_, hg, rfl⟩
  have hd : P1 - P2 ∈ Submodule.span (ZMod C.p) S := Submodule.sub_mem _ (hrow _ r1) (hrow _ r2)
  by_cases hz : P1 - P2 = 0
  · rw [hz]; exact Submodule.zero_mem _
  have hlt : C.ord.mo.toSyn (C.ord.mo.degree (P1 - P2)) < C.ord.mo.toSyn (fs q.lcm) := by
    refine lt_of_le_of_ne ?_ ?_
    · have := C.ord.mo.degree_sub_le (f := P1) (g := P2)
      rw [deg1, deg2, sup_idem] at this
      exact this
    · intro he
      have he := C.ord.mo.toSyn.injective he
      apply hz
      apply C.ord.mo.leadingCoeff_eq_zero_iff.mp
      rw [MonomialOrder.leadingCoeff, he, coeff_sub]
      have c1 : coeff (fs q.lcm) P1 = 1 := by rw [← deg1]; exact m1
      have c2 : coeff (fs q.lcm) P2 = 1 := by rw [← deg2]; exact m2
      rw [c1, c2, sub_self]
  have rok : ∀ r ∈ sy.rr, PolyOk C.ord C.p (rowPoly s.els r) := fun r hrr =>
    rowPoly_ok h.ok (hr.inv.rows r (Or.inl hrr)).1
  have hdist := span_distinct (m := C.ord.mo) (R := S) (by
      rintro g (⟨r, hrr, rfl⟩ | ⟨f, hf, rfl⟩)
      · exact (rok r hrr).monic
      · exact (hr.new.ok f hf).monic) (by
      rintro g (⟨r, hrr, rfl⟩ | ⟨f, hf, rfl⟩) g' (⟨r', hrr', rfl⟩ | ⟨f', hf', rfl⟩) he
      · rw [(rok r hrr).degree, (rok r' hrr').degree, fs_inj] at he
        rw [List.inj_on_of_nodup_map hr.inv.leads hrr hrr' he]
      · rw [(rok r hrr).degree, (hr.new.ok f' hf').degree, fs_inj] at he
        exact absurd ((hr.inv.mark _).mpr ⟨r, hrr, he⟩) (hr.new.fresh f' hf').2
      · rw [(rok r' hrr').degree, (hr.new.ok f hf).degree, fs_inj] at he
        exact absurd ((hr.inv.mark _).mpr ⟨r', hrr', he.symm⟩) (hr.new.fresh f hf).2
      · rw [(hr.new.ok f hf).degree, (hr.new.ok f' hf').degree, fs_inj] at he
        rw [List.inj_on_of_nodup_map hr.new.leads hf hf' he]) hd
  refine Submodule.span_le.mpr ?_ hdist
  rintro g ⟨⟨r, hrr, rfl⟩ | ⟨f, hf, rfl⟩, hle⟩
  · obtain ⟨b1, b2⟩ := hr.inv.rows r (Or.inl hrr)
    apply Submodule.subset_span
    refine ⟨r.gen, ?_, fs r.mul, ?_, ?_⟩
    · simp only [idx, Set.mem_ofPred_eq, List.length_append]; omega
    · rw [polys_append _ _ _ b1, toMv_rowPoly]
    · have hne : polys C.p s.els r.gen ≠ 0 := ne_zero_of_monic (m := C.ord.mo) (h.ok _ (getD_mem b1)).monic
      rw [polys_append _ _ _ b1, ← degree_mul' hne, ← toMv_rowPoly]
      exact lt_of_le_of_lt hle hlt
  · obtain ⟨j, hj, rfl⟩ := List.mem_iff_getElem.mp hf
    apply Submodule.subset_span
    have hget : polys C.p (s.els ++ N) (s.els.length + j) = toMv C.p N[j] := by
      unfold polys
      rw [List.getD_eq_getElem _ _ (by rw [List.length_append]; omega), List.getElem_append_right (by omega)]
      simp
    refine ⟨s.els.length + j, ?_, 0, ?_, ?_⟩
    · simp only [idx, Set.mem_ofPred_eq, List.length_append]; omega
    · rw [hget]; simp [X']
    · rw [hget, zero_add]
      exact lt_of_le_of_lt hle hlt

theorem rep_append (els N : List (Poly n)) {p : Nat} [Fact p.Prime] {m : MonomialOrder (Fin n)} {i j : Nat}
    (hi : i < els.length) (hj : j < els.length) (h : Rep m (idx els) (polys p els) i j) :
    Rep m (idx (els ++ N)) (polys p (els ++ N)) i j := by
  unfold Rep at h ⊢
  rw [polys_append _ _ _ hi, polys_append _ _ _ hj]
  refine Submodule.span_mono ?_ h
  rintro g ⟨k, hk, a, rfl, ha⟩
  have hk' : k < els.length := hk
  refine ⟨k, ?_, a, ?_, ?_⟩
  · simp only [idx, Set.mem_ofPred_eq, List.length_append]; omega
  · rw [polys_append _ _ _ hk']
  · rw [polys_append _ _ _ hk']; exact ha

theorem RoundInv.ideal (h : Inv C I s) (hr : RoundInv C stale s sy N) :
    Ideal.span { g | ∃ f ∈ s.els ++ N, g = toMv C.p f } = I := by
  rw [← h.ideal]
  apply le_antisymm
  · rw [Ideal.span_le]
    rintro g ⟨f, hf, rfl⟩
    rcases List.mem_append.mp hf with hf | hf
    · exact Ideal.subset_span ⟨f, hf, rfl⟩
    · have h1 : toMv C.p f ∈ Submodule.span (ZMod C.p) ({ g | ∃ r ∈ sy.rr, g = toMv C.p (rowPoly s.els r) } ∪
          { g | ∃ r ∈ sy.tr, g = toMv C.p (rowPoly s.els r) }) := by
        rw [← hr.new.span]
        exact Submodule.subset_span (Or.inr ⟨f, hf, rfl⟩)
      have hrow : ∀ r, r ∈ sy.rr ∨ r ∈ sy.tr → toMv C.p (rowPoly s.els r) ∈
          Ideal.span { g | ∃ f ∈ s.els, g = toMv C.p f } := by
        intro r hrr
        rw [toMv_rowPoly]
        exact Ideal.mul_mem_left _ _ (Ideal.subset_span ⟨_, getD_mem (hr.inv.rows r hrr).1, rfl⟩)
      have h2 : Submodule.span (ZMod C.p) ({ g | ∃ r ∈ sy.rr, g = toMv C.p (rowPoly s.els r) } ∪
          { g | ∃ r ∈ sy.tr, g = toMv C.p (rowPoly s.els r) }) ≤
          (Ideal.span { g | ∃ f ∈ s.els, g = toMv C.p f }).restrictScalars (ZMod C.p) := by
        rw [Submodule.span_le]
        rintro g (⟨r, hrr, rfl⟩ | ⟨r, hrr, rfl⟩)
        · exact hrow r (Or.inl hrr)
        · exact hrow r (Or.inr hrr)
      exact h2 h1
  · apply Ideal.span_mono
    rintro g ⟨f, hf, rfl⟩
    exact ⟨f, List.mem_append_left _ hf, rfl⟩

theorem lead_zero_of_deg {O : OKind} {p : Nat} {f : Poly n} (nev : Nat) (_h : PolyOk O p f) (hd : polyDeg nev f = 0) :
    lead f = 0 := by
  have h0 : tdeg (lead f) = 0 := by
    unfold polyDeg at hd
    split_ifs at hd
    · have key : ∀ (l : List Nat) (a : Nat), a ≤ l.foldl max a := by
        intro l
        induction l with
        | nil => intro a; exact le_rfl
        | cons b l ih => intro a; rw [List.foldl_cons]; exact (le_max_left _ _).trans (ih _)
      have := key (f.map fun t => tdeg t.1) (tdeg (lead f))
      omega
    · omega
  funext i
  have := Finset.sum_eq_zero_iff.mp h0 i (Finset.mem_univ _)
  exact this

/-- A round keeps the invariant. -/
theorem inv_next (hC : CfgOk C) (h : Inv C I s) (hr : RoundInv C stale s sy N) : Inv C I (next C stale s N) := by
  have hp := hC.sel s.pst.ps
  have happ := select_append C.mnsel stale (C.srtSel s.pst.ps)
  have hmem : ∀ q ∈ s.pst.ps, q ∈ (select C.mnsel stale (C.srtSel s.pst.ps)).1 ∨
      q ∈ (select C.mnsel stale (C.srtSel s.pst.ps)).2 := by
    intro q hq
    rw [← List.mem_append, happ]
    exact hp.mem_iff.mpr hq
  have hrest : ∀ q ∈ (select C.mnsel stale (C.srtSel s.pst.ps)).2, q ∈ s.pst.ps := fun q hq =>
    hp.mem_iff.mp ((List.drop_suffix _ _).subset hq)
  have hpinv : PInv (elsOf C.ord.nev (s.els ++ N)) (fun i j => i < (s.els ++ N).length ∧ j < (s.els ++ N).length ∧
      Rep C.ord.mo (idx (s.els ++ N)) (polys C.p (s.els ++ N)) i j)
      { s.pst with ps := (select C.mnsel stale (C.srtSel s.pst.ps)).2 } := by
    have hE : ∀ i < s.pst.ld, (elsOf C.ord.nev s.els).lm i = (elsOf C.ord.nev (s.els ++ N)).lm i := by
      intro i hi
      rw [h.ld] at hi
      simp only [elsOf]
      rw [getD_append_left _ _ hi]
    have h1 := pinv_congr (D' := fun i j => i < (s.els ++ N).length ∧ j < (s.els ++ N).length ∧
      Rep C.ord.mo (idx (s.els ++ N)) (polys C.p (s.els ++ N)) i j) hE (by
        rintro i j ⟨hi, hj, hrep⟩
        rw [List.length_append]
        exact ⟨by omega, by omega, rep_append _ _ hi hj hrep⟩) h.pinv
    refine ⟨fun q hq => h1.pair q (hrest q hq), h1.red, h1.fresh, h1.lmps, h1.lo, h1.nonred, ?_⟩
    intro i j hi hj
    refine Cov.mono le_rfl ?_ (h1.cov i j hi hj)
    rintro a b (⟨q, hq, rfl, rfl⟩ | hab)
    · rcases hmem q hq with hs | hs
      · obtain ⟨b1, b2, _⟩ := h.pinv.pair q hq
        rw [h.ld] at b2
        refine .base (Or.inr ⟨?_, ?_, hr.rep h hs hq⟩) <;> rw [List.length_append] <;> omega
      · exact .base (Or.inl ⟨q, hs, rfl, rfl⟩)
    · exact .base (Or.inr hab)
  obtain ⟨h1, h2, h3⟩ := updateBasis_inv (nev := C.ord.nev) (drl := C.ord.mo0) hC.upd
    (fun i => polyDeg_nonneg _ _) hpinv N.length
  refine ⟨?_, ?_, ?_, h1, ?_, ?_, hr.ideal h, ?_⟩
  · intro f hf
    rcases List.mem_append.mp hf with hf | hf
    · exact h.ok f hf
    · exact hr.new.ok f hf
  · simp only [next]; rw [h2, List.length_append]; simp only; rw [h.ld]
  · simp only [next]; rw [h3, List.length_append]; simp only; rw [h.ld]
  · intro h0
    simp only [next]
    rw [h0]
    exact updateBasis_deg hC.upd (fun q hq => h.deg h0 q (hrest q hq)) _
  · simp only [next]
    apply updateBasis_nodup
    · exact h.nodup
    · exact h.pinv.lmps
  · intro hc
    simp only [next, Bool.or_eq_true, List.any_eq_true, decide_eq_true_eq] at hc
    rcases hc with hc | ⟨f, hf, hd⟩
    · obtain ⟨f, hf, h0⟩ := h.const hc
      exact ⟨f, List.mem_append_left _ hf, h0⟩
    · exact ⟨f, List.mem_append_right _ hf, lead_zero_of_deg _ (hr.new.ok f hf) hd⟩

/-- New leading monomials are not divisible by old ones. -/
theorem RoundInv.newLead (h : Inv C I s) (hr : RoundInv C stale s sy N) {f : Poly n} (hf : f ∈ N) {g : Poly n}
    (hg : g ∈ s.els) : ¬ lead g ≤ lead f := by
  obtain ⟨i, hi, rfl⟩ := List.mem_iff_getElem.mp hg
  intro hle
  obtain ⟨k, hk, hk'⟩ := h.reducers hi
  rw [List.getD_eq_getElem s.els _ hi] at hk'
  obtain ⟨b1, b2⟩ := hr.new.fresh f hf
  rcases hr.irred _ b1 with h1 | h1
  · exact b2 h1
  · exact h1 k hk (hk'.trans hle)

end

/-! ### Correctness -/

/-- When the main loop stops, the elements are a Gröbner basis of the ideal. -/
theorem inv_groebner {C : Cfg n} [Fact C.p.Prime] {I : Ideal (MvPolynomial (Fin n) (ZMod C.p))} {s : St n}
    (h : Inv C I s) (hd : done s) : IsGroebner C.ord.mo I { g | ∃ f ∈ s.els, g = toMv C.p f } := by
  rcases hd with hd | hd
  · rw [← h.ideal, ← polys_image]
    refine buchberger (fun i hi => (h.ok _ (getD_mem hi)).monic) ?_
    intro i hi j hj
    have hi' : i < s.els.length := hi
    have hj' : j < s.els.length := hj
    have hcov := h.pinv.cov i j (by rw [h.ld]; exact hi') (by rw [h.ld]; exact hj')
    rw [h.ld] at hcov
    refine cov_rep h.ok ?_ (fun _ _ => rfl) hcov hi' hj'
    rintro a b (⟨q, hq, _⟩ | hab)
    · rw [hd] at hq; simp at hq
    · exact hab.2.2
  · obtain ⟨f, hf, h0⟩ := h.const hd
    refine ⟨?_, ?_⟩
    · rintro g hg
      rw [← h.ideal]
      exact Ideal.subset_span hg
    · intro g _ _
      refine ⟨toMv C.p f, ⟨f, hf, rfl⟩, ne_zero_of_monic (m := C.ord.mo) (h.ok f hf).monic, ?_⟩
      rw [(h.ok f hf).degree, h0, fs_zero]
      exact bot_le

/-! ### Progress and termination -/

theorem exists_cols (O : OKind) (s : Sym n) (hn : s.ms.Nodup) : ∃ hcm, IsCols O s hcm := by
  classical
  let le : Mon n → Mon n → Prop := fun u v => u = v ∨ colLt O s.mark u v
  have htot : Std.Total le := ⟨by
    intro u v
    by_cases hu : u ∈ s.mark <;> by_cases hv : v ∈ s.mark
    · rcases O.adm.total u v with h | h | h
      · exact Or.inr (Or.inr (Or.inr ⟨by tauto, h⟩))
      · exact Or.inl (Or.inl h)
      · exact Or.inl (Or.inr (Or.inr ⟨by tauto, h⟩))
    · exact Or.inl (Or.inr (Or.inl ⟨hu, hv⟩))
    · exact Or.inr (Or.inr (Or.inl ⟨hv, hu⟩))
    · rcases O.adm.total u v with h | h | h
      · exact Or.inr (Or.inr (Or.inr ⟨by tauto, h⟩))
      · exact Or.inl (Or.inl h)
      · exact Or.inl (Or.inr (Or.inr ⟨by tauto, h⟩))⟩
  have htr : IsTrans (Mon n) le := ⟨by
    rintro u v w (rfl | h1) (rfl | h2)
    · exact Or.inl rfl
    · exact Or.inr h2
    · exact Or.inr h1
    · right
      rcases h1 with h1 | h1 <;> rcases h2 with h2 | h2
      · exact Or.inl ⟨h1.1, h2.2⟩
      · exact Or.inl ⟨h1.1, by have := h1.2; tauto⟩
      · exact Or.inl ⟨by tauto, h2.2⟩
      · exact Or.inr ⟨by tauto, O.adm.trans _ _ _ h2.2 h1.2⟩⟩
  refine ⟨s.ms.insertionSort le, List.perm_insertionSort le _, ?_⟩
  have h1 : (s.ms.insertionSort le).Pairwise le := List.pairwise_insertionSort le _
  have h2 : (s.ms.insertionSort le).Nodup := (List.perm_insertionSort le _).nodup_iff.mpr hn
  refine (h1.and h2).imp ?_
  rintro a b ⟨rfl | h, hne⟩
  · exact absurd rfl hne
  · exact h

/-- If the loop is not done there is a next round. -/
theorem round_exists {C : Cfg n} [Fact C.p.Prime] (hC : CfgOk C) {I : Ideal (MvPolynomial (Fin n) (ZMod C.p))} {s : St n}
    (h : Inv C I s) (hd : ¬ done s) : ∃ s', Round C s s' := by
  obtain ⟨h1, h2⟩ := selSym_inv hC h 0
  have hlm : ∀ k ∈ s.pst.lmps, k < s.els.length := fun k hk => by
    have := h.pinv.lmps k hk
    rw [h.lo] at this
    exact this
  have hstart := loopInv_start (lmps := s.pst.lmps) h.ok h1
  obtain ⟨fuel, sy, hsym⟩ := symLoop_terminates h.ok hlm hstart
  obtain ⟨a1, a2, a3, a4⟩ := symLoop_inv h.ok hlm _ _ _ _ hstart hsym
  obtain ⟨hcm, hcol⟩ := exists_cols C.ord sy a1.nodup
  let le : MRow n → MRow n → Prop := fun a b => leadCol s.els hcm a ≤ leadCol s.els hcm b
  have htot : Std.Total le := ⟨fun a b => le_total _ _⟩
  have htr : IsTrans (MRow n) le := ⟨fun a b c => le_trans⟩
  have : DecidableRel le := fun a b => inferInstanceAs (Decidable (leadCol s.els hcm a ≤ leadCol s.els hcm b))
  have hperm := List.perm_insertionSort le sy.rr
  have hsorted : (sy.rr.insertionSort le).Pairwise le := List.pairwise_insertionSort le _
  have hM : MatInv C.ord C.p s.els sy hcm (sy.rr.insertionSort le) sy.tr := ⟨h.ok, a1, hcol, hperm, hsorted, .refl _⟩
  obtain ⟨R, hR⟩ := laResult_exists hC.prime hC.p31 hM.pre
  exact ⟨_, .mk s 0 fuel sy hcm _ _ R hd hsym hcol hperm hsorted (.refl _) hR⟩

/-- The ideal generated by the leading monomials. -/
noncomputable def leadIdeal (p : Nat) (els : List (Poly n)) : Ideal (MvPolynomial (Fin n) (ZMod p)) :=
  Ideal.span ((fun a => monomial a (1 : ZMod p)) '' { a | ∃ f ∈ els, a = fs (lead f) })

theorem leadIdeal_lt {p : Nat} [Fact p.Prime] {els N : List (Poly n)} {f : Poly n} (hf : f ∈ N)
    (hn : ∀ g ∈ els, ¬ lead g ≤ lead f) : leadIdeal p els < leadIdeal p (els ++ N) := by
  refine lt_of_le_of_ne ?_ ?_
  · apply Ideal.span_mono
    apply Set.image_mono
    rintro a ⟨g, hg, rfl⟩
    exact ⟨g, List.mem_append_left _ hg, rfl⟩
  · intro he
    have h1 : monomial (fs (lead f)) (1 : ZMod p) ∈ leadIdeal p els := by
      rw [he]
      exact Ideal.subset_span ⟨_, ⟨f, List.mem_append_right _ hf, rfl⟩, rfl⟩
    unfold leadIdeal at h1
    rw [mem_ideal_span_monomial_image] at h1
    obtain ⟨a, ⟨g, hg, rfl⟩, hle⟩ := h1 (fs (lead f)) (by
      rw [mem_support_iff, coeff_monomial, if_pos rfl]
      exact one_ne_zero)
    exact hn g hg hle

/-- The order in which the rounds decrease. -/
noncomputable def meas (p : Nat) (s : St n) : Ideal (MvPolynomial (Fin n) (ZMod p)) × Nat :=
  (leadIdeal p s.els, s.pst.ps.length)

theorem round_meas {C : Cfg n} [Fact C.p.Prime] (hC : CfgOk C) {I : Ideal (MvPolynomial (Fin n) (ZMod C.p))} {s s' : St n}
    (h : Inv C I s) (hr : Round C s s') : Prod.Lex (· > ·) (· < ·) (meas C.p s') (meas C.p s) := by
  obtain ⟨hd, stale, sy, N, hri, rfl⟩ := round_inv hC h hr
  by_cases hN : N = []
  · subst hN
    have e1 : (next C stale s []).els = s.els := by simp [next]
    have e2 : (next C stale s []).pst.ps = (select C.mnsel stale (C.srtSel s.pst.ps)).2 := by
      simp [next, updateBasis]
    unfold meas
    rw [e1, e2]
    apply Prod.Lex.right
    apply select_pos hC
    intro he
    exact hd (Or.inl he)
  · obtain ⟨f, hf⟩ := List.exists_mem_of_ne_nil _ hN
    apply Prod.Lex.left
    exact leadIdeal_lt hf fun g hg => hri.newLead h hf hg

theorem meas_wf (p : Nat) [Fact p.Prime] : WellFounded
    (Prod.Lex (α := Ideal (MvPolynomial (Fin n) (ZMod p))) (β := Nat) (· > ·) (· < ·)) :=
  WellFounded.prod_lex wellFounded_gt wellFounded_lt

/-- States reachable from the input. -/
inductive Reach (C : Cfg n) (F : List (Poly n)) : St n → Prop
  | start : Reach C F (start C F)
  | step {s s' : St n} : Reach C F s → Round C s s' → Reach C F s'

theorem reach_inv {C : Cfg n} [Fact C.p.Prime] (hC : CfgOk C) {F : List (Poly n)} (hF : ∀ f ∈ F, PolyOk C.ord C.p f)
    {s : St n} (h : Reach C F s) : Inv C (Ideal.span { g | ∃ f ∈ F, g = toMv C.p f }) s := by
  induction h with
  | start => exact inv_start hC hF
  | step _ hr ih =>
    obtain ⟨_, stale, sy, N, hri, rfl⟩ := round_inv hC ih hr
    exact inv_next hC ih hri

/-- The main loop terminates, whatever the choices. -/
theorem no_infinite {C : Cfg n} [Fact C.p.Prime] (hC : CfgOk C) {F : List (Poly n)} (hF : ∀ f ∈ F, PolyOk C.ord C.p f)
    (σ : Nat → St n) (h0 : σ 0 = start C F) : ¬ ∀ i, Round C (σ i) (σ (i + 1)) := by
  intro hr
  have hreach : ∀ i, Reach C F (σ i) := by
    intro i
    induction i with
    | zero => rw [h0]; exact .start
    | succ i ih => exact .step ih (hr i)
  have hwf := InvImage.wf (meas (n := n) C.p) (meas_wf C.p)
  have := WellFounded.has_min hwf (Set.range σ) ⟨σ 0, 0, rfl⟩
  obtain ⟨x, ⟨i, rfl⟩, hmin⟩ := this
  exact hmin (σ (i + 1)) ⟨i + 1, rfl⟩ (round_meas hC (reach_inv hC hF (hreach i)) (hr i))

/-- A final state is reached. -/
theorem exists_done {C : Cfg n} [Fact C.p.Prime] (hC : CfgOk C) {F : List (Poly n)} (hF : ∀ f ∈ F, PolyOk C.ord C.p f) :
    ∃ s, Reach C F s ∧ done s := by
  have hwf := InvImage.wf (meas (n := n) C.p) (meas_wf C.p)
  obtain ⟨x, hx, hmin⟩ := WellFounded.has_min hwf { s | Reach C F s } ⟨_, .start⟩
  refine ⟨x, hx, ?_⟩
  by_contra hd
  obtain ⟨s', hs'⟩ := round_exists hC (reach_inv hC hF hx) hd
  exact hmin s' (Reach.step hx hs') (round_meas hC (reach_inv hC hF hx) hs')

end Verif.F4
