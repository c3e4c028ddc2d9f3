import Verif.Trace

/-! What a trace guarantees: application runs are defined, keep the ideal and give the recorded leading
monomials; with the prime of the learning run they reproduce its result. -/

namespace Verif.F4

open Verif.Pairs Verif.Spec Verif.RowReduce Verif.Echelon Verif.Props Verif.Orders Verif.Groebner MvPolynomial

variable {n : Nat}

/-! ### Well-formed traces -/

/-- Leading monomial of a row, from the leading monomials of the basis. -/
def rowLead (ls : List (Mon n)) (r : MRow n) : Mon n := r.mul + ls.getD r.gen 0

/-- A record fits to a basis with leading monomials `ls`. -/
structure TDOk (ls : List (Mon n)) (T : TD n) : Prop where
  gen : ∀ r, r ∈ T.rri ∨ r ∈ T.tri → r.gen < ls.length
  leads : (T.rri.map (rowLead ls)).Nodup
  trLead : ∀ r ∈ T.tri, ∃ r' ∈ T.rri, rowLead ls r' = rowLead ls r

/-- A list of records fits. -/
def TrOk : List (Mon n) → List (TD n) → Prop
  | _, [] => True
  | ls, T :: l => TDOk ls T ∧ TrOk (ls ++ T.nlms) l

theorem trOk_append (T : TD n) : ∀ (l : List (TD n)) (ls : List (Mon n)),
    TrOk ls (l ++ [T]) ↔ TrOk ls l ∧ TDOk (ls ++ l.flatMap TD.nlms) T
  | [], ls => by simp [TrOk]
  | a :: l, ls => by
    simp only [List.cons_append, TrOk, trOk_append T l, List.flatMap_cons, List.append_assoc, and_assoc]

theorem lead_getD (els : List (Poly n)) (k : Nat) : lead (els.getD k []) = (els.map lead).getD k 0 := by
  by_cases hk : k < els.length
  · rw [List.getD_eq_getElem _ _ hk, List.getD_eq_getElem _ _ (by simpa using hk), List.getElem_map]
  · rw [List.getD_eq_default _ _ (by omega), List.getD_eq_default _ _ (by simp; omega)]
    rfl

theorem lead_rowPoly {O : OKind} {p : Nat} {els : List (Poly n)} (hok : ∀ f ∈ els, PolyOk O p f) {r : MRow n}
    (hg : r.gen < els.length) : lead (rowPoly els r) = rowLead (els.map lead) r := by
  unfold rowPoly rowLead
  rw [lead_mulPoly _ (hok _ (getD_mem hg)).ne_nil, lead_getD]

theorem foldl_addAll (els : List (Poly n)) (l : List (MRow n)) : ∀ ms : List (Mon n), ms.Nodup →
    (l.foldl (fun ms r => addAll ms (rowPoly els r)) ms).Nodup ∧
    ∀ m, m ∈ l.foldl (fun ms r => addAll ms (rowPoly els r)) ms ↔ m ∈ ms ∨ ∃ r ∈ l, ∃ t ∈ rowPoly els r, t.1 = m := by
  induction l with
  | nil => intro ms h; exact ⟨h, by simp⟩
  | cons a l ih =>
    intro ms h
    rw [List.foldl_cons]
    obtain ⟨h1, h2⟩ := ih _ (addAll_nodup (rowPoly els a) ms h)
    refine ⟨h1, fun m => ?_⟩
    rw [h2, mem_addAll]
    simp only [List.mem_cons, exists_eq_or_imp, or_assoc]

theorem appSym_inv {O : OKind} {p : Nat} {els : List (Poly n)} (hok : ∀ f ∈ els, PolyOk O p f) {T : TD n}
    (hT : TDOk (els.map lead) T) : SymInv els (appSym els T) := by
  have hgen : ∀ r, r ∈ T.rri ∨ r ∈ T.tri → r.gen < els.length := fun r hr => by simpa using hT.gen r hr
  obtain ⟨h1, h2⟩ := foldl_addAll els (T.rri ++ T.tri) [] List.nodup_nil
  refine ⟨h1, ?_, ?_, ?_, ?_⟩
  · intro r hr
    refine ⟨hgen r hr, fun t ht => (h2 _).mpr (Or.inr ⟨r, List.mem_append.mpr hr, t, ht, rfl⟩)⟩
  · intro m
    simp only [appSym, List.mem_map]
  · have : (appSym els T).rr.map (fun r => lead (rowPoly els r)) = T.rri.map (rowLead (els.map lead)) := by
      apply List.map_congr_left
      intro r hr
      exact lead_rowPoly hok (hgen r (Or.inl hr))
    rw [this]
    exact hT.leads
  · intro r hr
    obtain ⟨r', h3, h4⟩ := hT.trLead r hr
    simp only [appSym, List.mem_map]
    exact ⟨r', h3, by rw [lead_rowPoly hok (hgen r' (Or.inl h3)), lead_rowPoly hok (hgen r (Or.inr hr)), h4]⟩

theorem appSym_mat {O : OKind} {p : Nat} {els : List (Poly n)} (hok : ∀ f ∈ els, PolyOk O p f) {T : TD n}
    (hT : TDOk (els.map lead) T) {hcm : List (Mon n)} {rrs : List (MRow n)} (hcol : IsCols O (appSym els T) hcm)
    (hrr : rrs.Perm T.rri) (hs : rrs.Pairwise fun a b => leadCol els hcm a ≤ leadCol els hcm b) :
    MatInv O p els (appSym els T) hcm rrs T.tri :=
  ⟨hok, appSym_inv hok hT, hcol, hrr, hs, .refl _⟩

theorem won_finished {x : Th} (h : x.isWon = true) : x.finished = true := by
  cases x <;> simp_all [Th.finished, Th.isWon]

theorem finished_cases {x : Th} (h : x.finished = true) : x = .zero ∨ x.isWon = true := by
  cases x <;> simp_all [Th.finished, Th.isWon]

/-! ### Application rounds -/

section
variable {C : Cfg n} {els : List (Poly n)} {T : TD n}

/-- Every round of an application run ends. -/
theorem aRound_exists (hC : CfgOk C) (hok : ∀ f ∈ els, PolyOk C.ord C.p f) (hT : TDOk (els.map lead) T) :
    ∃ r, ARound C els T r := by
  classical
  have hinv := appSym_inv hok hT
  obtain ⟨hcm, hcol⟩ := exists_cols C.ord (appSym els T) hinv.nodup
  let le : MRow n → MRow n → Prop := fun a b => leadCol els hcm a ≤ leadCol els hcm b
  have htot : Std.Total le := ⟨fun a b => le_total _ _⟩
  have htr : IsTrans (MRow n) le := ⟨fun a b c => le_trans⟩
  have hperm := List.perm_insertionSort le T.rri
  have hsorted : (T.rri.insertionSort le).Pairwise le := List.pairwise_insertionSort le _
  have hM := appSym_mat hok hT hcol hperm hsorted
  have hs := C47_parallel_echelon_31 C.p _ hcm.length hC.prime hC.p31 _ _ _ hM.pre
  obtain ⟨m, c, he, hf⟩ := la_exists hs
  by_cases hz : ∃ t, c.th t = .zero
  · obtain ⟨t, ht⟩ := hz
    exact ⟨_, .zero hcm _ _ m c t hcol hperm hsorted (Or.inl rfl) he ht⟩
  · push Not at hz
    obtain ⟨R, hR, _⟩ := hs.correct m c he hf
    have hw : ∀ t, (c.th t).isWon = true := fun t => (finished_cases (hf t)).resolve_left (hz t)
    by_cases hl : (newPolys hcm R).map lead = T.nlms
    · exact ⟨_, .ok hcm _ _ m c R hcol hperm hsorted (Or.inl rfl) he hw hR hl⟩
    · exact ⟨_, .bad hcm _ _ m c R hcol hperm hsorted (Or.inl rfl) he hw hR hl⟩

/-- A round which is not rejected: the recorded leading monomials and the same ideal. -/
theorem aRound_ok [Fact C.p.Prime] (hC : CfgOk C) (hok : ∀ f ∈ els, PolyOk C.ord C.p f) (hT : TDOk (els.map lead) T)
    {els' : List (Poly n)} (h : ARound C els T (some els')) :
    ∃ N, els' = els ++ N ∧ N.map lead = T.nlms ∧ NewOk C.ord C.p els (appSym els T) N ∧
      NewRed C.ord C.p (appSym els T).mark N := by
  cases h with
  | ok hcm rrs P m c R hcol hrr hs hP he hw hR hl =>
    have hM := appSym_mat hok hT hcol hrr hs
    have hla : LaResult C.p (nclOf (appSym els T)) hcm.length (pivs0 els hcm rrs) (laRows els hcm T.tri)
        (fun t => leadCol els hcm T.tri[t]) R :=
      laResult_iff.mpr ⟨P, m, c, hP, he, fun t => won_finished (hw t), hR⟩
    exact ⟨_, rfl, hl, hM.newOk hC.prime hC.p31 hla, hM.newRed (laResult_ok hC.prime hC.p31 hM.pre hla)⟩

theorem new_ideal [Fact C.p.Prime] {sy : Sym n} (hinv : SymInv els sy) {N : List (Poly n)}
    (h : NewOk C.ord C.p els sy N) :
    Ideal.span { g | ∃ f ∈ els ++ N, g = toMv C.p f } = Ideal.span { g | ∃ f ∈ els, g = toMv C.p f } := by
  apply le_antisymm
  · rw [Ideal.span_le]
    rintro g ⟨f, hf, rfl⟩
    rcases List.mem_append.mp hf with hf | hf
    · exact Ideal.subset_span ⟨f, hf, rfl⟩
    · have h1 : toMv C.p f ∈ Submodule.span (ZMod C.p) ({ g | ∃ r ∈ sy.rr, g = toMv C.p (rowPoly els r) } ∪
          { g | ∃ r ∈ sy.tr, g = toMv C.p (rowPoly els r) }) := by
        rw [← h.span]
        exact Submodule.subset_span (Or.inr ⟨f, hf, rfl⟩)
      have hrow : ∀ r, r ∈ sy.rr ∨ r ∈ sy.tr → toMv C.p (rowPoly els r) ∈
          Ideal.span { g | ∃ f ∈ els, g = toMv C.p f } := by
        intro r hrr
        rw [toMv_rowPoly]
        exact Ideal.mul_mem_left _ _ (Ideal.subset_span ⟨_, getD_mem (hinv.rows r hrr).1, rfl⟩)
      have h2 : Submodule.span (ZMod C.p) ({ g | ∃ r ∈ sy.rr, g = toMv C.p (rowPoly els r) } ∪
          { g | ∃ r ∈ sy.tr, g = toMv C.p (rowPoly els r) }) ≤
          (Ideal.span { g | ∃ f ∈ els, g = toMv C.p f }).restrictScalars (ZMod C.p) := by
        rw [Submodule.span_le]
        rintro g (⟨r, hrr, rfl⟩ | ⟨r, hrr, rfl⟩)
        · exact hrow r (Or.inl hrr)
        · exact hrow r (Or.inr hrr)
      exact h2 h1
  · apply Ideal.span_mono
    rintro g ⟨f, hf, rfl⟩
    exact ⟨f, List.mem_append_left _ hf, rfl⟩
end

/-! ### Application runs -/

theorem aRun_ok {C : Cfg n} [Fact C.p.Prime] (hC : CfgOk C) {l : List (TD n)} {els : List (Poly n)}
    {r : Option (List (Poly n))} (h : ARun C l els r) : (∀ f ∈ els, PolyOk C.ord C.p f) → TrOk (els.map lead) l →
    ∀ els', r = some els' → (∀ f ∈ els', PolyOk C.ord C.p f) ∧ els'.map lead = els.map lead ++ l.flatMap TD.nlms ∧
      Ideal.span { g | ∃ f ∈ els', g = toMv C.p f } = Ideal.span { g | ∃ f ∈ els, g = toMv C.p f } := by
  induction h with
  | nil els =>
    rintro hok _ els' he
    obtain rfl := Option.some.inj he
    exact ⟨hok, by simp, rfl⟩
  | bad _ => intro _ _ els' he; exact absurd he (by simp)
  | @step T l els els1 r hr _ ih =>
    rintro hok ⟨hT, hl⟩ els' he
    obtain ⟨N, rfl, h1, h2, _⟩ := aRound_ok hC hok hT hr
    have hok' : ∀ f ∈ els ++ N, PolyOk C.ord C.p f := by
      intro f hf
      rcases List.mem_append.mp hf with hf | hf
      · exact hok f hf
      · exact h2.ok f hf
    obtain ⟨a1, a2, a3⟩ := ih hok' (by rw [List.map_append, h1]; exact hl) els' he
    refine ⟨a1, ?_, a3.trans (new_ideal (appSym_inv hok hT) h2)⟩
    rw [a2, List.map_append, h1, List.flatMap_cons, List.append_assoc]

theorem aRun_exists {C : Cfg n} [Fact C.p.Prime] (hC : CfgOk C) : ∀ (l : List (TD n)) (els : List (Poly n)),
    (∀ f ∈ els, PolyOk C.ord C.p f) → TrOk (els.map lead) l → ∃ r, ARun C l els r
  | [], els, _, _ => ⟨_, .nil els⟩
  | T :: l, els, hok, hT => by
    obtain ⟨r, hr⟩ := aRound_exists hC hok hT.1
    cases r with
    | none => exact ⟨_, .bad hr⟩
    | some els' =>
      obtain ⟨N, rfl, h1, h2, _⟩ := aRound_ok hC hok hT.1 hr
      obtain ⟨r, h⟩ := aRun_exists hC l (els ++ N) (by
        intro f hf
        rcases List.mem_append.mp hf with hf | hf
        · exact hok f hf
        · exact h2.ok f hf) (by rw [List.map_append, h1]; exact hT.2)
      exact ⟨r, .step hr h⟩

theorem rounds_ok {ls : List (Mon n)} {tr : Tr n} (h : TrOk ls tr.td) :
    TrOk ls tr.rounds ∧ tr.rounds.flatMap TD.nlms = tr.td.flatMap TD.nlms := by
  unfold Tr.rounds
  split_ifs with he
  · rw [he]
    refine ⟨⟨⟨?_, ?_, ?_⟩, trivial⟩, ?_⟩ <;> simp [TD.empty]
  · exact ⟨h, rfl⟩

/-! ### Learning rounds -/

/-- Everything known about a round of the learning run. -/
structure LFacts (C : Cfg n) (els : List (Poly n)) (sy : Sym n) (N : List (Poly n)) (T : TD n) : Prop where
  inv : SymInv els sy
  new : NewOk C.ord C.p els sy N
  red : NewRed C.ord C.p sy.mark N
  nlms : T.nlms = N.map lead
  rri : ∀ r ∈ T.rri, r ∈ sy.rr
  rriLead : (T.rri.map fun r => lead (rowPoly els r)).Nodup
  tri : ∀ r ∈ T.tri, r ∈ sy.tr
  len : T.tri.length = N.length
  span : ∀ f ∈ N, toMv C.p f ∈ Submodule.span (ZMod C.p) (rowSet C.p els sy.rr ∪ rowSet C.p els T.tri)
  reduce : ∀ r ∈ T.tri, ∃ w, w - toMv C.p (rowPoly els r) ∈ Submodule.span (ZMod C.p) (rowSet C.p els T.rri) ∧
    ∀ m ∈ sy.mark, coeff (fs m) w = 0
  trLead : ∀ r ∈ T.tri, ∃ r' ∈ T.rri, lead (rowPoly els r') = lead (rowPoly els r)

theorem rri_sublist {els : List (Poly n)} {hcm : List (Mon n)} {rrs trs : List (MRow n)} {P : Echelon.Par}
    {c : Conf trs.length} {N : List (Poly n)} : List.Sublist (mkTD els hcm rrs trs P c N).rri rrs := by
  have h : List.Sublist (mkTD els hcm rrs trs P c N).rri ((List.range rrs.length).filterMap fun i => rrs[i]?) :=
    List.Sublist.filterMap _ (List.filter_sublist)
  have e : ((List.range rrs.length).filterMap fun i => rrs[i]?) = rrs := by
    clear h
    generalize rrs = l
    induction l with
    | nil => rfl
    | cons a l ih =>
      rw [List.length_cons, List.range_succ_eq_map, List.filterMap_cons_some (b := a) (by simp), List.filterMap_map]
      simpa [Function.comp_def] using ih
  rwa [e] at h

theorem lRound_facts {C : Cfg n} [Fact C.p.Prime] (hC : CfgOk C) {I : Ideal (MvPolynomial (Fin n) (ZMod C.p))} {s s' : St n}
    {T T' : List (TD n)} (h : Inv C I s) (hr : LRound C (s, T) (s', T')) :
    Round C s s' ∧ ∃ sy N td, LFacts C s.els sy N td ∧ s'.els = s.els ++ N ∧ T' = learn T N td ∧
      ∃ stale, RoundInv C stale s sy N ∧ s' = next C stale s N := by
  cases hr with
  | mk _ _ stale fuel sy hcm rrs trs P m c R hd hsym hcol hrr hsrt htr hP he hf hR =>
    have hla : LaResult C.p (nclOf sy) hcm.length (pivs0 s.els hcm rrs) (laRows s.els hcm trs)
        (fun t => leadCol s.els hcm trs[t]) R := laResult_iff.mpr ⟨P, m, c, hP, he, hf, hR⟩
    have hround : Round C s (next C stale s (newPolys hcm R)) := .mk s stale fuel sy hcm rrs trs R hd hsym hcol hrr hsrt htr hla
    obtain ⟨h1, h2⟩ := selSym_inv hC h stale
    have hlm : ∀ k ∈ s.pst.lmps, k < s.els.length := fun k hk => by
      have := h.pinv.lmps k hk
      rw [h.lo] at this
      exact this
    obtain ⟨a1, a2, a3, a4⟩ := symLoop_inv h.ok hlm _ _ _ _ (loopInv_start h.ok h1) hsym
    have hM : MatInv C.ord C.p s.els sy hcm rrs trs := ⟨h.ok, a1, hcol, hrr, hsrt, htr⟩
    have hnew := hM.newOk hC.prime hC.p31 hla
    obtain ⟨⟨Ok, hPo⟩, e1, e2, e3⟩ := isLaPar_ok hC.prime hC.p31 hM.pre.left hP
    have hM' : MatInv C.ord P.p s.els sy hcm rrs trs := by rw [e1]; exact hM
    refine ⟨hround, sy, _, _, ?_, rfl, rfl, stale, ⟨a1, ?_, a4, hnew⟩, rfl⟩
    · refine ⟨a1, hnew, hM.newRed (laResult_ok hC.prime hC.p31 hM.pre hla), rfl, ?_, ?_, ?_, ?_, ?_, ?_, ?_⟩
      · intro r hr
        exact hrr.mem_iff.mp (rri_sublist.subset hr)
      · refine List.Nodup.sublist (rri_sublist.map _) ?_
        exact (hrr.map _).nodup_iff.mpr a1.leads
      · intro r hr
        obtain ⟨t, _, rfl⟩ := List.mem_map.mp hr
        exact htr.mem_iff.mp (List.getElem_mem _)
      · simp only [mkTD, List.length_map]
        exact hM'.won_length hPo e2 e3 he hR
      · intro f hf'
        have := hM'.won_span hPo e2 e3 he hf hR hf'
        rw [e1] at this
        exact this
      · intro r hr
        have := (hM'.used hPo e2 e3 hr).1
        rw [e1] at this
        exact this
      · intro r hr
        exact (hM'.used hPo e2 e3 hr).2
    · intro q hq g hg
      rcases h2 q hq g hg with h3 | h3
      · exact Or.inl (a3.subset h3)
      · exact Or.inr (a2 ▸ h3)

/-- Every round can be done with recording. -/
theorem lRound_of_round {C : Cfg n} {s s' : St n} (T : List (TD n)) (hr : Round C s s') : ∃ T', LRound C (s, T) (s', T') := by
  obtain ⟨stale, fuel, sy, hcm, rrs, trs, R, hd, hsym, hcol, hrr, hsrt, htr, hla⟩ := hr
  obtain ⟨P, m, c, hP, he, hf, hR⟩ := laResult_iff.mp hla
  exact ⟨_, .mk s T stale fuel sy hcm rrs trs P m c R hd hsym hcol hrr hsrt htr hP he hf hR⟩

theorem lReach_of_reach {C : Cfg n} {F : List (Poly n)} {s : St n} (h : Reach C F s) : ∃ T, LReach C F s T := by
  induction h with
  | start => exact ⟨_, .start⟩
  | step _ hr ih =>
    obtain ⟨T, hT⟩ := ih
    obtain ⟨T', hT'⟩ := lRound_of_round T hr
    exact ⟨T', .step hT hT'⟩

theorem LFacts.tdOk {C : Cfg n} {els : List (Poly n)} {sy : Sym n} {N : List (Poly n)} {td : TD n}
    (hok : ∀ f ∈ els, PolyOk C.ord C.p f) (h : LFacts C els sy N td) : TDOk (els.map lead) td := by
  have hg : ∀ r, r ∈ td.rri ∨ r ∈ td.tri → r.gen < els.length := by
    rintro r (hr | hr)
    · exact (h.inv.rows r (Or.inl (h.rri r hr))).1
    · exact (h.inv.rows r (Or.inr (h.tri r hr))).1
  refine ⟨fun r hr => by simpa using hg r hr, ?_, ?_⟩
  · have : td.rri.map (rowLead (els.map lead)) = td.rri.map fun r => lead (rowPoly els r) := by
      apply List.map_congr_left
      intro r hr
      exact (lead_rowPoly hok (hg r (Or.inl hr))).symm
    rw [this]
    exact h.rriLead
  · intro r hr
    obtain ⟨r', h1, h2⟩ := h.trLead r hr
    exact ⟨r', h1, by rw [← lead_rowPoly hok (hg r' (Or.inl h1)), ← lead_rowPoly hok (hg r (Or.inr hr)), h2]⟩

/-- The states of the learning run are states of F4; the records fit. -/
theorem lReach_ok {C : Cfg n} [Fact C.p.Prime] (hC : CfgOk C) {F : List (Poly n)} (hF : ∀ f ∈ F, PolyOk C.ord C.p f)
    {s : St n} {T : List (TD n)} (h : LReach C F s T) :
    Reach C F s ∧ TrOk (F.map lead) T ∧ s.els.map lead = F.map lead ++ T.flatMap TD.nlms := by
  induction h with
  | start => exact ⟨.start, trivial, by simp [start]⟩
  | step _ hr ih =>
    obtain ⟨a1, a2, a3⟩ := ih
    have hinv := reach_inv hC hF a1
    obtain ⟨b1, sy, N, td, b2, b3, rfl, _⟩ := lRound_facts hC hinv hr
    refine ⟨.step a1 b1, ?_, ?_⟩
    · unfold learn
      split_ifs with hN
      · exact a2
      · rw [trOk_append, ← a3]
        exact ⟨a2, b2.tdOk hinv.ok⟩
    · unfold learn
      split_ifs with hN
      · rw [b3, hN, List.append_nil, a3]
      · rw [b3, List.map_append, a3, List.flatMap_append, List.append_assoc]
        simp [b2.nlms]

/-! ### The same prime -/

/-- The same round again gives the same new elements. -/
theorem reproduce {C : Cfg n} [Fact C.p.Prime] {els : List (Poly n)} (hok : ∀ f ∈ els, PolyOk C.ord C.p f)
    {sy : Sym n} {N : List (Poly n)} {td : TD n} (h : LFacts C els sy N td) {N' : List (Poly n)}
    (hn : NewOk C.ord C.p els (appSym els td) N') (hr : NewRed C.ord C.p (appSym els td).mark N') : N' = N := by
  have hrow : ∀ r ∈ sy.rr, PolyOk C.ord C.p (rowPoly els r) := fun r hr =>
    rowPoly_ok hok (h.inv.rows r (Or.inl hr)).1
  have hmon : ∀ g ∈ rowSet C.p els sy.rr, C.ord.mo.leadingCoeff g = 1 := by
    rintro g ⟨r, hr, rfl⟩; exact (hrow r hr).monic
  have hdist : ∀ g ∈ rowSet C.p els sy.rr, ∀ g' ∈ rowSet C.p els sy.rr, C.ord.mo.degree g = C.ord.mo.degree g' → g = g' := by
    rintro g ⟨r, hr, rfl⟩ g' ⟨r', hr', rfl⟩ he
    rw [(hrow r hr).degree, (hrow r' hr').degree, fs_inj] at he
    rw [List.inj_on_of_nodup_map h.inv.leads hr hr' he]
  have hsub : rowSet C.p els td.rri ⊆ rowSet C.p els sy.rr := by
    rintro g ⟨r, hr, rfl⟩; exact ⟨r, h.rri r hr, rfl⟩
  choose! w hw1 hw2 using h.reduce
  set W : Set (MvPolynomial (Fin n) (ZMod C.p)) := { g | ∃ r ∈ td.tri, g = w r } with hW
  have hWav : ∀ g ∈ rowSet C.p els sy.rr, ∀ a ∈ W, coeff (C.ord.mo.degree g) a = 0 := by
    rintro g ⟨r, hr, rfl⟩ a ⟨r', hr', rfl⟩
    rw [(hrow r hr).degree]
    exact hw2 r' hr' _ ((h.inv.mark _).mpr ⟨r, hr, rfl⟩)
  have avoid : ∀ {mk : List (Mon n)} {M : List (Poly n)}, NewRed C.ord C.p mk M → ∀ m ∈ mk, ∀ a ∈ polySet C.p M,
      coeff (fs m) a = 0 := by
    rintro mk M hM m hm a ⟨f, hf, rfl⟩
    apply toMv_coeff_zero
    intro t ht he
    exact hM.avoid f hf t ht (he ▸ hm)
  have hNav : ∀ g ∈ rowSet C.p els sy.rr, ∀ a ∈ polySet C.p N, coeff (C.ord.mo.degree g) a = 0 := by
    rintro g ⟨r, hr, rfl⟩ a ha
    rw [(hrow r hr).degree]
    exact avoid h.red _ ((h.inv.mark _).mpr ⟨r, hr, rfl⟩) a ha
  have hNav' : ∀ g ∈ rowSet C.p els td.rri, ∀ a ∈ polySet C.p N', coeff (C.ord.mo.degree g) a = 0 := by
    rintro g ⟨r, hr', rfl⟩ a ha
    rw [(hrow r (h.rri r hr')).degree]
    exact avoid hr _ (List.mem_map.mpr ⟨r, hr', rfl⟩) a ha
  -- the rows and their reductions span the same modulo the recorded reducers
  have e1 : ∀ A : Set (MvPolynomial (Fin n) (ZMod C.p)), rowSet C.p els td.rri ⊆ A →
      Submodule.span (ZMod C.p) (A ∪ rowSet C.p els td.tri) = Submodule.span (ZMod C.p) (A ∪ W) := by
    intro A hA
    apply le_antisymm
    · rw [Submodule.span_le]
      rintro g (hg | ⟨r, hr, rfl⟩)
      · exact Submodule.subset_span (Or.inl hg)
      · have h1 : w r - toMv C.p (rowPoly els r) ∈ Submodule.span (ZMod C.p) (A ∪ W) :=
          Submodule.span_mono (hA.trans Set.subset_union_left) (hw1 r hr)
        have h2 : w r ∈ Submodule.span (ZMod C.p) (A ∪ W) := Submodule.subset_span (Or.inr ⟨r, hr, rfl⟩)
        have := Submodule.sub_mem _ h2 h1
        rwa [sub_sub_cancel] at this
    · rw [Submodule.span_le]
      rintro g (hg | ⟨r, hr, rfl⟩)
      · exact Submodule.subset_span (Or.inl hg)
      · have h1 : w r - toMv C.p (rowPoly els r) ∈ Submodule.span (ZMod C.p) (A ∪ rowSet C.p els td.tri) :=
          Submodule.span_mono (hA.trans Set.subset_union_left) (hw1 r hr)
        have h2 : toMv C.p (rowPoly els r) ∈ Submodule.span (ZMod C.p) (A ∪ rowSet C.p els td.tri) :=
          Submodule.subset_span (Or.inr ⟨r, hr, rfl⟩)
        have := Submodule.add_mem _ h1 h2
        rwa [sub_add_cancel] at this
  have s1 : Submodule.span (ZMod C.p) (polySet C.p N') ≤ Submodule.span (ZMod C.p) W := by
    rw [Submodule.span_le]
    intro x hx
    refine span_avoid (m := C.ord.mo) (fun g hg => hmon g (hsub hg)) (fun g hg g' hg' => hdist g (hsub hg) g' (hsub hg'))
      (fun g hg => hWav g (hsub hg)) ?_ fun g hg => hNav' g hg x hx
    rw [← e1 _ subset_rfl]
    have : x ∈ Submodule.span (ZMod C.p) (rowSet C.p els td.rri ∪ polySet C.p N') :=
      Submodule.subset_span (Or.inr hx)
    rw [show Submodule.span (ZMod C.p) (rowSet C.p els td.rri ∪ polySet C.p N') = _ from hn.span] at this
    exact this
  have s2 : Submodule.span (ZMod C.p) W ≤ Submodule.span (ZMod C.p) (polySet C.p N') := by
    rw [Submodule.span_le]
    intro x hx
    refine span_avoid (m := C.ord.mo) (fun g hg => hmon g (hsub hg)) (fun g hg g' hg' => hdist g (hsub hg) g' (hsub hg'))
      hNav' ?_ fun g hg => hWav g (hsub hg) x hx
    rw [show Submodule.span (ZMod C.p) (rowSet C.p els td.rri ∪ polySet C.p N') = _ from hn.span]
    change x ∈ Submodule.span (ZMod C.p) (rowSet C.p els td.rri ∪ rowSet C.p els td.tri)
    rw [e1 _ subset_rfl]
    exact Submodule.subset_span (Or.inr hx)
  have s3 : Submodule.span (ZMod C.p) (polySet C.p N) ≤ Submodule.span (ZMod C.p) W := by
    rw [Submodule.span_le]
    intro x hx
    refine span_avoid (m := C.ord.mo) hmon hdist hWav ?_ fun g hg => hNav g hg x hx
    rw [← e1 _ hsub]
    obtain ⟨f, hf, rfl⟩ := hx
    exact h.span f hf
  have s4 : Submodule.span (ZMod C.p) W ≤ Submodule.span (ZMod C.p) (polySet C.p N) := by
    rw [Submodule.span_le]
    intro x hx
    refine span_avoid (m := C.ord.mo) hmon hdist hNav ?_ fun g hg => hWav g hg x hx
    have h1 : x ∈ Submodule.span (ZMod C.p) (rowSet C.p els sy.rr ∪ rowSet C.p els td.tri) := by
      rw [e1 _ hsub]; exact Submodule.subset_span (Or.inr hx)
    rw [show Submodule.span (ZMod C.p) (rowSet C.p els sy.rr ∪ polySet C.p N) = _ from h.new.span]
    refine Submodule.span_mono ?_ h1
    rintro g (hg | ⟨r, hr, rfl⟩)
    · exact Or.inl hg
    · exact Or.inr ⟨r, h.tri r hr, rfl⟩
  exact newRed_unique hn.ok h.new.ok hr h.red (le_antisymm (s1.trans s4) (s3.trans s2))

/-- A round with the prime of the learning run is not rejected. -/
theorem aRound_same {C : Cfg n} [Fact C.p.Prime] (hC : CfgOk C) {els : List (Poly n)} (hok : ∀ f ∈ els, PolyOk C.ord C.p f)
    {sy : Sym n} {N : List (Poly n)} {td : TD n} (h : LFacts C els sy N td) {r : Option (List (Poly n))}
    (hr : ARound C els td r) : r = some (els ++ N) := by
  have hT := h.tdOk hok
  have key : ∀ {hcm : List (Mon n)} {rrs : List (MRow n)} {P : Echelon.Par} {m : Nat} {c : Conf td.tri.length}
      {R : Nat → Option Row}, IsCols C.ord (appSym els td) hcm → rrs.Perm td.rri →
      rrs.Pairwise (fun a b => leadCol els hcm a ≤ leadCol els hcm b) →
      IsLaPar C.p (nclOf (appSym els td)) hcm.length P →
      Exec P m (initConf (pivs0 els hcm rrs) (laRows els hcm td.tri) (fun t => leadCol els hcm td.tri[t])) c →
      (∀ t, (c.th t).finished = true) → interreduce P c.pivs = some R → newPolys hcm R = N := by
    intro hcm rrs P m c R hcol hrr hs hP he hf hR
    have hM := appSym_mat hok hT hcol hrr hs
    have hla : LaResult C.p (nclOf (appSym els td)) hcm.length (pivs0 els hcm rrs) (laRows els hcm td.tri)
        (fun t => leadCol els hcm td.tri[t]) R := laResult_iff.mpr ⟨P, m, c, hP, he, hf, hR⟩
    exact reproduce hok h (hM.newOk hC.prime hC.p31 hla) (hM.newRed (laResult_ok hC.prime hC.p31 hM.pre hla))
  cases hr with
  | ok hcm rrs P m c R hcol hrr hs hP he hw hR hl =>
    rw [key hcol hrr hs hP he (fun t => won_finished (hw t)) hR]
  | bad hcm rrs P m c R hcol hrr hs hP he hw hR hl =>
    rw [key hcol hrr hs hP he (fun t => won_finished (hw t)) hR, h.nlms] at hl
    exact absurd rfl hl
  | zero hcm rrs P m c t hcol hrr hs hP he hz =>
    exfalso
    have hM := appSym_mat hok hT hcol hrr hs
    have hsnd : EchelonSound P (pivs0 els hcm rrs) (laRows els hcm td.tri) (fun t => leadCol els hcm td.tri[t]) := by
      rcases hP with rfl | ⟨q1, q2, rfl⟩
      · exact C47_parallel_echelon_31 C.p _ hcm.length hC.prime hC.p31 _ _ _ hM.pre
      · exact C47_parallel_echelon_17 C.p _ hcm.length hC.prime q1 q2 _ _ _ hM.pre
    obtain ⟨m', c', he', hf', hk⟩ := la_extend hsnd he
    obtain ⟨R, hR, _⟩ := hsnd.correct m' c' he' hf'
    have hN := key hcol hrr hs hP he' hf' hR
    obtain ⟨⟨Ok, hPo⟩, e1, e2, e3⟩ := isLaPar_ok hC.prime hC.p31 hM.pre.left hP
    have hM' : MatInv C.ord P.p els (appSym els td) hcm rrs td.tri := by rw [e1]; exact hM
    have hlen := hM'.won_length hPo e2 e3 he' hR
    rw [hN, ← h.len] at hlen
    have hz' : c'.th t = .zero := by
      rw [hk t (by rw [hz]; rfl), hz]
    have : (wonList c').length < td.tri.length := by
      have h1 : (wonList c').length ≤ ((List.finRange td.tri.length).filter fun x => decide (x ≠ t)).length := by
        apply List.Sublist.length_le
        apply List.monotone_filter_right
        intro x hx
        simp only [decide_eq_true_eq]
        rintro rfl
        rw [hz'] at hx
        exact absurd hx (by simp [Th.isWon])
      have h2 : ((List.finRange td.tri.length).filter fun x => decide (x ≠ t)).length < (List.finRange td.tri.length).length :=
        List.length_filter_lt_length_iff_exists.mpr ⟨t, List.mem_finRange t, by simp⟩
      rw [List.length_finRange] at h2
      omega
    omega

/-- The round of an empty trace changes nothing. -/
theorem aRound_empty {C : Cfg n} [Fact C.p.Prime] (hC : CfgOk C) {els : List (Poly n)} (hok : ∀ f ∈ els, PolyOk C.ord C.p f)
    {r : Option (List (Poly n))} (hr : ARound C els TD.empty r) : r = some els := by
  have hT : TDOk (els.map lead) (TD.empty : TD n) := by
    refine ⟨?_, ?_, ?_⟩ <;> simp [TD.empty]
  have h : LFacts C els ⟨[], [], [], []⟩ [] TD.empty := by
    refine ⟨?_, ?_, ?_, rfl, ?_, ?_, ?_, rfl, ?_, ?_, ?_⟩
    · refine ⟨?_, ?_, ?_, ?_, ?_⟩ <;> simp
    · refine ⟨?_, ?_, ?_, ?_⟩ <;> simp
    · refine ⟨?_, ?_, ?_⟩ <;> simp
    all_goals simp [TD.empty]
  simpa using aRound_same hC hok h hr

theorem aRun_same {C : Cfg n} [Fact C.p.Prime] (hC : CfgOk C) {F : List (Poly n)} (hF : ∀ f ∈ F, PolyOk C.ord C.p f)
    {s : St n} {T : List (TD n)} (h : LReach C F s T) : ∀ (l : List (TD n)) (r : Option (List (Poly n))),
    ARun C (T ++ l) F r → ARun C l s.els r := by
  induction h with
  | start => intro l r h; exact h
  | @step s s' T T' hs hr ih =>
    intro l r h
    obtain ⟨a1, _, _⟩ := lReach_ok hC hF hs
    have hinv := reach_inv hC hF a1
    obtain ⟨_, sy, N, td, b2, b3, rfl, _⟩ := lRound_facts hC hinv hr
    rw [b3]
    unfold learn at h
    split_ifs at h with hN
    · rw [hN, List.append_nil]
      exact ih l r h
    · rw [List.append_assoc] at h
      have h1 := ih _ r h
      cases h1 with
      | bad hb => exact absurd (aRound_same hC hinv.ok b2 hb) (by simp)
      | step hb h2 =>
        obtain rfl := Option.some.inj (aRound_same hC hinv.ok b2 hb)
        exact h2

theorem rounds_same {C : Cfg n} [Fact C.p.Prime] (hC : CfgOk C) {F : List (Poly n)} (hF : ∀ f ∈ F, PolyOk C.ord C.p f)
    {s : St n} {tr : Tr n} (h : LReach C F s tr.td) {r : Option (List (Poly n))} (hr : ARun C tr.rounds F r) :
    r = some s.els := by
  unfold Tr.rounds at hr
  split_ifs at hr with he
  · have h0 := aRun_same hC hF h [] (some F) (by rw [he]; exact .nil F)
    have hF' : F = s.els := by
      generalize he' : some F = x at h0
      cases h0
      exact Option.some.inj he'
    cases hr with
    | bad hb => exact absurd (aRound_empty hC hF hb) (by simp)
    | step hb h2 =>
      obtain rfl := Option.some.inj (aRound_empty hC hF hb)
      cases h2
      rw [hF']
  · have := aRun_same hC hF h [] r (by rw [List.append_nil]; exact hr)
    cases this
    rfl

/-- Nothing is recorded if the input is a Gröbner basis already. -/
theorem trace_nil {C : Cfg n} [Fact C.p.Prime] (hC : CfgOk C) {F : List (Poly n)} (hF : ∀ f ∈ F, PolyOk C.ord C.p f)
    (hG : IsGroebner C.ord.mo (Ideal.span { g | ∃ f ∈ F, g = toMv C.p f }) { g | ∃ f ∈ F, g = toMv C.p f })
    {s : St n} {T : List (TD n)} (h : LReach C F s T) : T = [] ∧ s.els = F := by
  induction h with
  | start => exact ⟨rfl, rfl⟩
  | @step s s' T T' hs hr ih =>
    obtain ⟨rfl, he⟩ := ih
    obtain ⟨a1, _, _⟩ := lReach_ok hC hF hs
    have hinv := reach_inv hC hF a1
    obtain ⟨b1, sy, N, td, b2, b3, rfl, stale, b4, b5⟩ := lRound_facts hC hinv hr
    have hN : N = [] := by
      by_contra hne
      obtain ⟨f, hf⟩ := List.exists_mem_of_ne_nil _ hne
      have hfI : toMv C.p f ∈ Ideal.span { g | ∃ f ∈ F, g = toMv C.p f } := by
        rw [← b4.ideal hinv]
        exact Ideal.subset_span ⟨f, List.mem_append_right _ hf, rfl⟩
      have hfo := b4.new.ok f hf
      obtain ⟨g, ⟨e, hef, rfl⟩, _, hle⟩ := hG.2 _ hfI (ne_zero_of_monic (m := C.ord.mo) hfo.monic)
      rw [(hF e hef).degree, hfo.degree, fs_le] at hle
      exact b4.newLead hinv hf (he ▸ hef) hle
    subst hN
    exact ⟨by simp [learn], by rw [b3, List.append_nil, he]⟩

end Verif.F4
