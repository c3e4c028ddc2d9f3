import Verif.F4Final
import Verif.GroebnerUnique
import Verif.Props.Arith

/-! Properties of the F4 algorithm over a prime field: C43 (pair selection), C44 (result of the main loop
and of the final reduction), C51 (the result does not depend on threads, caps and sorts). -/

namespace Verif.Props

open Verif.Pairs Verif.Spec Verif.F4 Verif.Groebner MvPolynomial

variable {n : Nat}

/-! ### Sort functions exist -/

theorem adm_neg {lt : Mon n → Mon n → Prop} (h : Admissible lt) {a b c : Mon n} (hca : lt c a) : lt c b ∨ lt b a := by
  rcases h.total b a with h1 | h1 | h1
  · exact Or.inr h1
  · exact Or.inl (h1 ▸ hca)
  · exact Or.inl (h.trans _ _ _ hca h1)

theorem pairLt_neg (O : OKind) {a b c : Pair n} (h : O.pairLt c a) : O.pairLt c b ∨ O.pairLt b a := by
  cases O with
  | drl => exact adm_neg Orders.drl_admissible h
  | lex =>
    simp only [OKind.pairLt] at *
    rcases h with h | ⟨h, h'⟩
    · omega
    · rcases adm_neg (b := b.lcm) Orders.lex_admissible h' with h1 | h1 <;> rcases lt_trichotomy (tdeg c.lcm) (tdeg b.lcm) with h2 | h2 | h2
      · exact Or.inl (Or.inl h2)
      · exact Or.inl (Or.inr ⟨h2, h1⟩)
      · exact Or.inr (Or.inl (by omega))
      · exact Or.inl (Or.inl h2)
      · exact Or.inr (Or.inr ⟨by omega, h1⟩)
      · exact Or.inr (Or.inl (by omega))
  | be k =>
    simp only [OKind.pairLt] at *
    rcases h with h | ⟨h, h'⟩
    · omega
    · rcases adm_neg (b := b.lcm) (Orders.be_admissible k) h' with h1 | h1 <;> rcases lt_trichotomy c.deg b.deg with h2 | h2 | h2
      · exact Or.inl (Or.inl h2)
      · exact Or.inl (Or.inr ⟨h2, h1⟩)
      · exact Or.inr (Or.inl (by omega))
      · exact Or.inl (Or.inl h2)
      · exact Or.inr (Or.inr ⟨by omega, h1⟩)
      · exact Or.inr (Or.inl (by omega))

theorem pairLt_irrefl (O : OKind) (a : Pair n) : ¬ O.pairLt a a := by
  cases O with
  | drl => exact Orders.drl_admissible.irrefl _
  | lex =>
    rintro (h | h)
    · omega
    · exact Orders.lex_admissible.irrefl _ h.2
  | be k =>
    rintro (h | h)
    · omega
    · exact (Orders.be_admissible k).irrefl _ h.2

theorem pairLt_trans (O : OKind) {a b c : Pair n} (h : O.pairLt a b) (h' : O.pairLt b c) : O.pairLt a c := by
  cases O with
  | drl => exact Orders.drl_admissible.trans _ _ _ h h'
  | lex =>
    simp only [OKind.pairLt] at *
    rcases h with h | ⟨h, h1⟩ <;> rcases h' with h' | ⟨h', h2⟩
    · exact Or.inl (by omega)
    · exact Or.inl (by omega)
    · exact Or.inl (by omega)
    · exact Or.inr ⟨by omega, Orders.lex_admissible.trans _ _ _ h1 h2⟩
  | be k =>
    simp only [OKind.pairLt] at *
    rcases h with h | ⟨h, h1⟩ <;> rcases h' with h' | ⟨h', h2⟩
    · exact Or.inl (by omega)
    · exact Or.inl (by omega)
    · exact Or.inl (by omega)
    · exact Or.inr ⟨by omega, (Orders.be_admissible k).trans _ _ _ h1 h2⟩

/-- A configuration with insertion sort. -/
noncomputable def stdCfg (O : OKind) (p mnsel : Nat) : Cfg n :=
  { ord := O, p := p, mnsel := mnsel, srtUpd := id,
    srtSel := fun l => @List.insertionSort _ (fun a b => ¬ O.pairLt b a) (Classical.decRel _) l }

theorem stdCfg_ok (O : OKind) {p mnsel : Nat} (hp : p.Prime) (h31 : p < 2 ^ 31) (hm : 0 < mnsel) :
    CfgOk (stdCfg (n := n) O p mnsel) where
  prime := hp
  p31 := h31
  mnsel := hm
  upd l := .refl _
  sel l := @List.perm_insertionSort _ _ (Classical.decRel _) _
  sorted l := by
    have h1 : Std.Total fun a b : Pair n => ¬ O.pairLt b a := ⟨by
      intro a b
      by_contra hno
      push Not at hno
      exact pairLt_irrefl O _ (pairLt_trans O hno.1 hno.2)⟩
    have h2 : IsTrans (Pair n) fun a b => ¬ O.pairLt b a := ⟨by
      intro a b c hab hbc hca
      rcases pairLt_neg O (b := b) hca with h | h
      · exact hbc h
      · exact hab h⟩
    exact @List.pairwise_insertionSort _ (fun a b => ¬ O.pairLt b a) (Classical.decRel _) h1 h2 l

/-! ### C43: selection of pairs -/

theorem sorted_deg {C : Cfg n} (hC : CfgOk C) {l : List (Pair n)}
    (hdeg : C.ord.nev = 0 → ∀ q ∈ l, q.deg = tdeg q.lcm) : (C.srtSel l).Pairwise fun a b => a.deg ≤ b.deg := by
  have hs := hC.sorted l
  have hd : C.ord.nev = 0 → ∀ q ∈ C.srtSel l, q.deg = tdeg q.lcm := fun h q hq =>
    hdeg h q ((hC.sel l).mem_iff.mp hq)
  generalize C.srtSel l = L at hs hd
  generalize C.ord = O at hs hd
  refine List.Pairwise.imp_of_mem ?_ hs
  intro a b ha hb hab
  by_contra hlt
  apply hab
  cases O with
  | drl =>
    rw [hd rfl a ha, hd rfl b hb] at hlt
    have : tdeg b.lcm < tdeg a.lcm := by omega
    exact Or.inl this
  | lex =>
    rw [hd rfl a ha, hd rfl b hb] at hlt
    exact Or.inl (by omega)
  | be k => exact Or.inl (by omega)

/-- The pairs of least degree. -/
def leastDeg (l : List (Pair n)) : List (Pair n) := l.filter fun q => decide (∀ r ∈ l, q.deg ≤ r.deg)

theorem npd_filter {a : Pair n} {L : List (Pair n)} (hs : (a :: L).Pairwise fun a b => a.deg ≤ b.deg) :
    (a :: L).takeWhile (fun q => decide (¬ q.deg > a.deg)) = leastDeg (a :: L) := by
  have key : ∀ M : List (Pair n), M.Pairwise (fun a b => a.deg ≤ b.deg) →
      M.takeWhile (fun q => decide (¬ q.deg > a.deg)) = M.filter fun q => decide (¬ q.deg > a.deg) := by
    intro M hM
    induction M with
    | nil => rfl
    | cons b M ih =>
      rw [List.pairwise_cons] at hM
      rw [List.takeWhile_cons, List.filter_cons]
      split_ifs with h
      · rw [ih hM.2]
      · symm
        rw [List.filter_eq_nil_iff]
        intro q hq
        have := hM.1 q hq
        simp only [decide_eq_true_eq] at h ⊢
        omega
  rw [key _ hs, leastDeg]
  apply List.filter_congr
  intro q hq
  rw [decide_eq_decide]
  rw [List.pairwise_cons] at hs
  constructor
  · intro h r hr
    rcases List.mem_cons.mp hr with rfl | hr
    · omega
    · have := hs.1 r hr
      omega
  · intro h
    have := h a List.mem_cons_self
    omega

theorem leastDeg_perm {l l' : List (Pair n)} (h : l.Perm l') : (leastDeg l).Perm (leastDeg l') := by
  unfold leastDeg
  refine (h.filter _).trans ?_
  rw [List.filter_congr (q := fun q => decide (∀ r ∈ l', q.deg ≤ r.deg))]
  intro q _
  rw [decide_eq_decide]
  exact forall_congr' fun r => by rw [h.mem_iff]

/-- **C43**, for any pair set: nothing is lost or duplicated, only pairs of least degree are selected, at
least one if there is one; all of them if there are at most `mnsel`, otherwise at least `mnsel`. -/
theorem C43_selection {C : Cfg n} (hC : CfgOk C) (stale : Mon n) (l : List (Pair n))
    (hdeg : C.ord.nev = 0 → ∀ q ∈ l, q.deg = tdeg q.lcm) :
    let r := select C.mnsel stale (C.srtSel l)
    (r.1 ++ r.2).Perm l ∧ (∀ q ∈ r.1, ∀ q' ∈ l, q.deg ≤ q'.deg) ∧ (l ≠ [] → r.1 ≠ []) ∧
    ((leastDeg l).length ≤ C.mnsel → r.1.Perm (leastDeg l) ∧ ∀ q ∈ r.1, ∀ q' ∈ r.2, q.deg < q'.deg) ∧
    (C.mnsel < (leastDeg l).length → C.mnsel ≤ r.1.length) := by
  have hs := sorted_deg hC hdeg
  have hp := hC.sel l
  generalize C.srtSel l = L at hs hp
  intro r
  have happ : r.1 ++ r.2 = L := select_append C.mnsel stale L
  have hq1 : ∀ q ∈ r.1, ∀ q' ∈ l, q.deg ≤ q'.deg := by
    intro q hq q' hq'
    cases L with
    | nil => simp [r, select] at hq
    | cons a L =>
      have h1 := select_deg hC.mnsel stale a L q hq
      have h2 := hp.mem_iff.mpr hq'
      rw [List.pairwise_cons] at hs
      rcases List.mem_cons.mp h2 with rfl | h2
      · exact h1
      · exact h1.trans (hs.1 _ h2)
  refine ⟨happ ▸ hp, hq1, ?_, ?_, ?_⟩
  · intro hl h0
    cases L with
    | nil => exact hl hp.symm.eq_nil
    | cons a L =>
      have := (selCount_bounds C.mnsel hC.mnsel stale a L).1
      have h1 : r.1.length = _ := List.length_take
      rw [h0, List.length_nil, List.length_cons] at h1
      omega
  · intro hle
    cases L with
    | nil =>
      have := hp.symm.eq_nil
      subst this
      simp [r, select, leastDeg]
    | cons a L =>
      have hc : npd a.deg (a :: L) = (leastDeg (a :: L)).length := by rw [npd, npd_filter hs]
      have hl := (leastDeg_perm hp).length_eq
      have hr : r.1 = leastDeg (a :: L) := by
        have : selCount C.mnsel stale (a :: L) = npd a.deg (a :: L) := by
          unfold selCount
          simp only
          rw [if_neg (by omega)]
        show (a :: L).take _ = _
        rw [this, ← npd_filter hs, npd]
        exact (List.prefix_iff_eq_take.mp (List.takeWhile_prefix _)).symm
      refine ⟨hr ▸ leastDeg_perm hp, ?_⟩
      intro q hq q' hq'
      by_contra hlt
      have hq0 : q' ∈ leastDeg (a :: L) := by
        unfold leastDeg
        rw [List.mem_filter]
        refine ⟨happ ▸ List.mem_append_right _ hq', ?_⟩
        rw [decide_eq_true_eq]
        intro z hz
        have := hq1 q hq z (hp.mem_iff.mp hz)
        omega
      -- all pairs of least degree are in the first part, as often as in the whole list
      have hcnt : (leastDeg (a :: L)).length = (r.1.filter fun q => decide (∀ r ∈ (a :: L), q.deg ≤ r.deg)).length +
          (r.2.filter fun q => decide (∀ r ∈ (a :: L), q.deg ≤ r.deg)).length := by
        rw [← List.length_append, ← List.filter_append, happ, leastDeg]
      have h1 : (r.1.filter fun q => decide (∀ r ∈ (a :: L), q.deg ≤ r.deg)) = r.1 := by
        rw [List.filter_eq_self]
        intro z hz
        rw [hr] at hz
        exact (List.mem_filter.mp hz).2
      have h2 : 0 < (r.2.filter fun q => decide (∀ r ∈ (a :: L), q.deg ≤ r.deg)).length :=
        List.length_pos_of_mem (List.mem_filter.mpr ⟨hq', (List.mem_filter.mp hq0).2⟩)
      have h3 : r.1.length = (leastDeg (a :: L)).length := by rw [hr]
      rw [h1] at hcnt
      omega
  · intro hlt
    cases L with
    | nil =>
      have := hp.symm.eq_nil
      subst this
      simp [leastDeg] at hlt
    | cons a L =>
      have hc : npd a.deg (a :: L) = (leastDeg (a :: L)).length := by rw [npd, npd_filter hs]
      have hl := (leastDeg_perm hp).length_eq
      have hn := npd_le a.deg (a :: L)
      have h1 : r.1.length = _ := List.length_take
      have h2 : C.mnsel ≤ selCount C.mnsel stale (a :: L) := by
        unfold selCount
        simp only
        rw [if_pos (by omega)]
        exact (extend_bounds stale _ _ _ _ _ (by omega)).1
      omega

/-- **C43** in every state of the main loop. -/
theorem C43_reachable {C : Cfg n} (hC : CfgOk C) {F : List (Poly n)} (hF : ∀ f ∈ F, PolyOk C.ord C.p f) {s : St n}
    (hs : Reach C F s) (stale : Mon n) :
    let r := select C.mnsel stale (C.srtSel s.pst.ps)
    (r.1 ++ r.2).Perm s.pst.ps ∧ (∀ q ∈ r.1, ∀ q' ∈ s.pst.ps, q.deg ≤ q'.deg) ∧ (s.pst.ps ≠ [] → r.1 ≠ []) ∧
    ((leastDeg s.pst.ps).length ≤ C.mnsel →
      r.1.Perm (leastDeg s.pst.ps) ∧ ∀ q ∈ r.1, ∀ q' ∈ r.2, q.deg < q'.deg) ∧
    (C.mnsel < (leastDeg s.pst.ps).length → C.mnsel ≤ r.1.length) := by
  have : Fact C.p.Prime := ⟨hC.prime⟩
  exact C43_selection hC stale _ (reach_inv hC hF hs).deg

/-- The comment symbol.c 263-264 says that pairs with the lcm of the last selected pair are selected too.
They are not: with a cap of one and three pairs with degree two, the first two with the same lcm, only the
first is selected. -/
theorem C43_class_split : ∃ a b c : Pair 2, a.lcm = b.lcm ∧ a.deg = b.deg ∧ b.deg = c.deg ∧
    (∀ O : OKind, (O = .drl ∨ O = .lex) → [a, b, c].Pairwise fun x y => ¬ O.pairLt y x) ∧
    ∀ stale, select 1 stale [a, b, c] = ([a], [b, c]) := by
  refine ⟨⟨![0, 2], 0, 1, 2⟩, ⟨![0, 2], 0, 2, 2⟩, ⟨![1, 1], 1, 2, 2⟩, rfl, rfl, rfl, ?_, ?_⟩
  · rintro O (rfl | rfl)
    · simp only [OKind.pairLt, Drl, DrlOn]
      decide
    · simp only [OKind.pairLt, tdeg, Spec.Lex]
      decide
  · intro stale
    have : selCount 1 stale [(⟨![0, 2], 0, 1, 2⟩ : Pair 2), ⟨![0, 2], 0, 2, 2⟩, ⟨![1, 1], 1, 2, 2⟩] = 1 := by
      simp [selCount, npd, extend, lcmAt]
    unfold select
    rw [this]
    rfl

example : CfgOk (stdCfg (n := 2) .drl 101 3) := stdCfg_ok _ (by norm_num) (by norm_num) (by norm_num)

/-! ### C44: the main loop -/

/-- **C44**: whenever the main loop ends, the basis is a Gröbner basis of the input ideal and generates
it. -/
theorem C44_groebner {C : Cfg n} (hC : CfgOk C) {F : List (Poly n)} (hF : ∀ f ∈ F, PolyOk C.ord C.p f) {s : St n}
    (hs : Reach C F s) (hd : done s) :
    have : Fact C.p.Prime := ⟨hC.prime⟩
    IsGroebner C.ord.mo (Ideal.span { g | ∃ f ∈ F, g = toMv C.p f }) { g | ∃ f ∈ s.els, g = toMv C.p f } ∧
    Ideal.span { g | ∃ f ∈ s.els, g = toMv C.p f } = Ideal.span { g | ∃ f ∈ F, g = toMv C.p f } := by
  intro _
  have hi := reach_inv hC hF hs
  exact ⟨inv_groebner hi hd, hi.ideal⟩

/-- The main loop never gets stuck: in every state that is not final, a round is possible. -/
theorem C44_progress {C : Cfg n} (hC : CfgOk C) {F : List (Poly n)} (hF : ∀ f ∈ F, PolyOk C.ord C.p f) {s : St n}
    (hs : Reach C F s) (hd : ¬ done s) : ∃ s', Round C s s' := by
  have : Fact C.p.Prime := ⟨hC.prime⟩
  exact round_exists hC (reach_inv hC hF hs) hd

/-- The main loop terminates, whatever the choices. -/
theorem C44_terminates {C : Cfg n} (hC : CfgOk C) {F : List (Poly n)} (hF : ∀ f ∈ F, PolyOk C.ord C.p f)
    (σ : Nat → St n) (h0 : σ 0 = start C F) : ¬ ∀ i, Round C (σ i) (σ (i + 1)) := by
  have : Fact C.p.Prime := ⟨hC.prime⟩
  exact no_infinite hC hF σ h0

/-- The complete computation has a result, and each result is the reduced Gröbner basis of the input
ideal, with leading coefficients one, sorted by leading monomials. -/
theorem C44_reduced {C : Cfg n} (hC : CfgOk C) {F : List (Poly n)} (hF : ∀ f ∈ F, PolyOk C.ord C.p f) :
    have : Fact C.p.Prime := ⟨hC.prime⟩
    (F ≠ [] → ∃ s G, Reach C F s ∧ done s ∧ Final C s G) ∧
    ∀ s G, Reach C F s → done s → Final C s G →
      IsReducedGroebner C.ord.mo (Ideal.span { g | ∃ f ∈ F, g = toMv C.p f }) { g | ∃ f ∈ G, g = toMv C.p f } ∧
      (∀ f ∈ G, PolyOk C.ord C.p f) ∧ G.Pairwise fun a b => C.ord.lt (lead a) (lead b) := by
  intro _
  constructor
  · intro hne
    obtain ⟨s, hs, hd⟩ := exists_done hC hF
    have hi := reach_inv hC hF hs
    have hse : s.els ≠ [] := by
      clear hd hi
      induction hs with
      | start => exact hne
      | step h0 hr ih =>
        obtain ⟨_, stale, sy, N, hri, rfl⟩ := round_inv hC (reach_inv hC hF h0) hr
        simp only [next]
        intro h
        exact ih (List.append_eq_nil_iff.mp h).1
    obtain ⟨G, hG⟩ := final_exists hC hi hse
    exact ⟨s, G, hs, hd, hG⟩
  · intro s G hs hd hG
    exact final_reduced hC (reach_inv hC hF hs) hd hG

/-! ### C51: independence of choices -/

theorem toMv_injOn {O : OKind} {p : Nat} [Fact p.Prime] {f g : Poly n} (hf : PolyOk O p f) (hg : PolyOk O p g)
    (h : toMv p f = toMv p g) : f = g := by
  have key : ∀ {f g : Poly n}, PolyOk O p f → PolyOk O p g → toMv p f = toMv p g → ∀ t ∈ f, t ∈ g := by
    intro f g hf hg h t ht
    have h1 := toMv_coeff (O := O) p f hf.sorted t ht
    by_cases hex : ∃ t' ∈ g, t'.1 = t.1
    · obtain ⟨t', ht', he⟩ := hex
      have h2 := toMv_coeff (O := O) p g hg.sorted t' ht'
      rw [he, ← h, h1] at h2
      have : t.2 = t'.2 := by
        have h3 := (ZMod.natCast_eq_natCast_iff' _ _ _).mp h2
        rwa [Nat.mod_eq_of_lt (hf.coeff t ht).2, Nat.mod_eq_of_lt (hg.coeff t' ht').2] at h3
      rw [show t = t' from Prod.ext he.symm this]
      exact ht'
    · push Not at hex
      rw [h, toMv_coeff_zero p g t.1 hex] at h1
      have h3 := (ZMod.natCast_eq_zero_iff _ _).mp h1.symm
      have := Nat.le_of_dvd (hf.coeff t ht).1 h3
      have := (hf.coeff t ht).2
      omega
  have hpf := List.pairwise_map.mp hf.sorted
  have hpg := List.pairwise_map.mp hg.sorted
  have hadm := O.adm (n := n)
  have hnd : ∀ {l : Poly n}, l.Pairwise (fun a b => O.lt b.1 a.1) → l.Nodup := by
    intro l hl
    refine List.Pairwise.imp ?_ hl
    rintro a b hab rfl
    exact hadm.irrefl _ hab
  have hperm : f.Perm g := (List.perm_ext_iff_of_nodup (hnd hpf) (hnd hpg)).mpr fun t =>
    ⟨key hf hg h t, key hg hf h.symm t⟩
  exact hperm.eq_of_pairwise (le := fun a b => O.lt b.1 a.1)
    (fun a b _ _ hab hba => absurd (hadm.trans _ _ _ hab hba) (hadm.irrefl _)) hpf hpg

/-- **C51**: two computations for the same monomial order and prime, with generators of the same ideal,
return the same list of polynomials, whatever the selection caps, the order of equal pairs, the order of
rows, the choices of the threads. -/
theorem C51_deterministic {C C' : Cfg n} (hC : CfgOk C) (hC' : CfgOk C') (hord : C.ord = C'.ord) (hp : C.p = C'.p)
    {F F' : List (Poly n)} (hF : ∀ f ∈ F, PolyOk C.ord C.p f) (hF' : ∀ f ∈ F', PolyOk C.ord C.p f)
    (hI : Ideal.span { g | ∃ f ∈ F, g = toMv C.p f } = Ideal.span { g | ∃ f ∈ F', g = toMv C.p f })
    {s s' : St n} {G G' : List (Poly n)} (hs : Reach C F s) (hd : done s) (hG : Final C s G)
    (hs' : Reach C' F' s') (hd' : done s') (hG' : Final C' s' G') : G = G' := by
  have : Fact C.p.Prime := ⟨hC.prime⟩
  have : Fact C'.p.Prime := ⟨hC'.prime⟩
  obtain ⟨h1, h2, h3⟩ := (C44_reduced hC hF).2 s G hs hd hG
  have hX := (C44_reduced hC' (by rwa [← hord, ← hp])).2 s' G' hs' hd' hG'
  rw [← hord] at hX
  obtain ⟨O, p, m, u, v⟩ := C
  obtain ⟨O', p', m', u', v'⟩ := C'
  simp only at hp hord
  subst hp
  obtain ⟨h1', h2', h3'⟩ := hX
  simp only at *
  rw [← hI] at h1'
  have hset := reduced_unique h1 h1'
  have hadm := O.adm (n := n)
  have hnd : ∀ {l : List (Poly n)}, l.Pairwise (fun a b => O.lt (lead a) (lead b)) → l.Nodup := by
    intro l hl
    refine List.Pairwise.imp ?_ hl
    rintro a b hab rfl
    exact hadm.irrefl _ hab
  have hperm : G.Perm G' := (List.perm_ext_iff_of_nodup (hnd h3) (hnd h3')).mpr fun f => by
    constructor
    · intro hf
      obtain ⟨g, hg, he⟩ := hset.subset ⟨f, hf, rfl⟩
      rw [toMv_injOn (h2 f hf) (h2' g hg) he]
      exact hg
    · intro hf
      obtain ⟨g, hg, he⟩ := hset.symm.subset ⟨f, hf, rfl⟩
      rw [toMv_injOn (h2' f hf) (h2 g hg) he]
      exact hg
  exact hperm.eq_of_pairwise (le := fun a b => O.lt (lead a) (lead b))
    (fun a b _ _ hab hba => absurd (hadm.trans _ _ _ hab hba) (hadm.irrefl _)) h3 h3'

/-! ### The hypotheses are met -/

/-- `x^2 + 3 y`, `x y + 5` modulo 101. -/
def exF : List (Poly 2) := [[(![2, 0], 1), (![0, 1], 3)], [(![1, 1], 1), (![0, 0], 5)]]

theorem exF_ok : ∀ f ∈ exF, PolyOk .drl 101 f := by
  intro f hf
  simp only [exF, List.mem_cons, List.not_mem_nil, or_false] at hf
  rcases hf with rfl | rfl
  · refine ⟨⟨_, rfl⟩, ?_, by decide⟩
    simp only [OKind.lt, Drl, DrlOn]
    decide
  · refine ⟨⟨_, rfl⟩, ?_, by decide⟩
    simp only [OKind.lt, Drl, DrlOn]
    decide

example : ∃ s G, Reach (stdCfg .drl 101 1) exF s ∧ done s ∧ Final (stdCfg .drl 101 1) s G :=
  (C44_reduced (stdCfg_ok _ (by norm_num) (by norm_num) (by norm_num)) exF_ok).1 (by decide)

example {s s' : St 2} {G G' : List (Poly 2)} (hs : Reach (stdCfg .drl 101 1) exF s) (hd : done s)
    (hG : Final (stdCfg .drl 101 1) s G) (hs' : Reach (stdCfg .drl 101 1000) exF.reverse s') (hd' : done s')
    (hG' : Final (stdCfg .drl 101 1000) s' G') : G = G' :=
  C51_deterministic (C := stdCfg .drl 101 1) (C' := stdCfg .drl 101 1000)
    (stdCfg_ok _ (by norm_num) (by norm_num) (by norm_num)) (stdCfg_ok _ (by norm_num) (by norm_num) (by norm_num)) rfl rfl exF_ok
    (fun f hf => exF_ok f (List.mem_reverse.mp hf)) (by simp) hs hd hG hs' hd' hG'

end Verif.Props
