import Verif.F4Sym

/-! The matrix of a round: columns, known pivots, and what the linear algebra returns. -/

namespace Verif.F4

open Verif.Pairs Verif.Spec Verif.RowReduce Verif.Echelon Verif.Props Verif.Orders Verif.Groebner MvPolynomial

variable {n : Nat}

/-! ### Columns -/

theorem colLt_asymm {O : OKind} {mark : List (Mon n)} {u v : Mon n} (h : colLt O mark u v) : ¬ colLt O mark v u := by
  rintro (h' | h') <;> rcases h with h | h
  · exact h.2 h'.1
  · exact h'.2 (h.1.mpr h'.1)
  · exact h.2 (h'.1.mpr h.1)
  · exact O.adm.irrefl _ (O.adm.trans _ _ _ h.2 h'.2)

theorem idxOf_lt {O : OKind} {mark hcm : List (Mon n)} (hs : hcm.Pairwise (colLt O mark)) {u v : Mon n}
    (hu : u ∈ hcm) (hv : v ∈ hcm) (h : colLt O mark u v) : hcm.idxOf u < hcm.idxOf v := by
  have lu := List.idxOf_lt_length_iff.mpr hu
  have lv := List.idxOf_lt_length_iff.mpr hv
  by_contra hlt
  rcases Nat.lt_or_ge (hcm.idxOf v) (hcm.idxOf u) with h1 | h1
  · have := List.pairwise_iff_getElem.mp hs _ _ lv lu h1
    rw [List.getElem_idxOf, List.getElem_idxOf] at this
    exact colLt_asymm h this
  · have he : hcm.idxOf u = hcm.idxOf v := by omega
    have : u = v := by
      have e1 := List.getElem_idxOf lu
      have e2 := List.getElem_idxOf lv
      rw [← e1, ← e2]
      congr 1
    rw [this] at h
    exact colLt_asymm h h

theorem cols_split {O : OKind} {mark : List (Mon n)} : ∀ {hcm : List (Mon n)}, hcm.Pairwise (colLt O mark) →
    hcm = (hcm.filter fun m => decide (m ∈ mark)) ++ hcm.filter fun m => !decide (m ∈ mark) := by
  intro hcm
  induction hcm with
  | nil => intro _; rfl
  | cons a l ih =>
    intro h
    rw [List.pairwise_cons] at h
    by_cases ha : a ∈ mark
    · rw [List.filter_cons_of_pos (by simpa using ha), List.filter_cons_of_neg (by simpa using ha), List.cons_append,
        ← ih h.2]
    · have hl : ∀ b ∈ l, b ∉ mark := by
        intro b hb hm
        rcases h.1 b hb with h1 | h1
        · exact ha h1.1
        · exact ha (h1.1.mpr hm)
      have h1 : (l.filter fun m => decide (m ∈ mark)) = [] := by
        rw [List.filter_eq_nil_iff]
        intro b hb
        simpa using hl b hb
      have h2 : (l.filter fun m => !decide (m ∈ mark)) = l := by
        rw [List.filter_eq_self]
        intro b hb
        simpa using hl b hb
      rw [List.filter_cons_of_neg (by simpa using ha), List.filter_cons_of_pos (by simpa using ha), h1, h2]
      rfl

theorem ncl_eq {O : OKind} {s : Sym n} {hcm : List (Mon n)} (h : IsCols O s hcm) :
    nclOf s = (hcm.filter fun m => decide (m ∈ s.mark)).length :=
  ((h.1.filter _).length_eq).symm

theorem mark_iff_lt {O : OKind} {s : Sym n} {hcm : List (Mon n)} (h : IsCols O s hcm) {c : Nat} (hc : c < hcm.length) :
    hcm[c] ∈ s.mark ↔ c < nclOf s := by
  have hsp := cols_split h.2
  rw [ncl_eq h]
  have key : ∀ (L : List (Mon n)) (hL : c < L.length), L = (hcm.filter fun m => decide (m ∈ s.mark)) ++
      hcm.filter (fun m => !decide (m ∈ s.mark)) → (L[c] ∈ s.mark ↔ c < (hcm.filter fun m => decide (m ∈ s.mark)).length) := by
    intro L hL he
    subst he
    by_cases hlt : c < (hcm.filter fun m => decide (m ∈ s.mark)).length
    · rw [List.getElem_append_left hlt]
      simp only [hlt, iff_true]
      have := List.getElem_mem hlt
      simpa using (List.mem_filter.mp this).2
    · rw [List.getElem_append_right (by omega)]
      simp only [hlt, iff_false]
      have : (hcm.filter fun m => !decide (m ∈ s.mark))[c - (hcm.filter fun m => decide (m ∈ s.mark)).length]'(by
          rw [List.length_append] at hL; omega) ∈ hcm.filter fun m => !decide (m ∈ s.mark) := List.getElem_mem _
      simpa using (List.mem_filter.mp this).2
  exact key hcm hc hsp

theorem cols_nodup {O : OKind} {s : Sym n} {hcm : List (Mon n)} (h : IsCols O s hcm) : hcm.Nodup :=
  h.2.imp fun hab he => by rw [he] at hab; exact colLt_asymm hab hab

theorem idxOf_getElem' {l : List (Mon n)} (h : l.Nodup) {c : Nat} (hc : c < l.length) : l.idxOf l[c] = c :=
  List.Nodup.idxOf_getElem h c hc

theorem idxOf_inj' {l : List (Mon n)} {u v : Mon n} (hu : u ∈ l) (hv : v ∈ l) (h : l.idxOf u = l.idxOf v) : u = v := by
  have lu := List.idxOf_lt_length_iff.mpr hu
  have lv := List.idxOf_lt_length_iff.mpr hv
  have e1 := List.getElem_idxOf lu
  have e2 := List.getElem_idxOf lv
  rw [← e1, ← e2]
  congr 1

/-! ### Rows -/

/-- Everything known about the matrix of a round. -/
structure MatInv (O : OKind) (p : Nat) (els : List (Poly n)) (s : Sym n) (hcm : List (Mon n))
    (rrs trs : List (MRow n)) : Prop where
  ok : ∀ f ∈ els, PolyOk O p f
  inv : SymInv els s
  cols : IsCols O s hcm
  rr : rrs.Perm s.rr
  sorted : rrs.Pairwise fun a b => leadCol els hcm a ≤ leadCol els hcm b
  tr : trs.Perm s.tr

section
variable {O : OKind} {p : Nat} {els : List (Poly n)} {s : Sym n} {hcm : List (Mon n)} {rrs trs : List (MRow n)}

theorem MatInv.row (h : MatInv O p els s hcm rrs trs) {r : MRow n} (hr : r ∈ s.rr ∨ r ∈ s.tr) :
    PolyOk O p (rowPoly els r) ∧ lead (rowPoly els r) ∈ s.mark ∧ ∀ t ∈ rowPoly els r, t.1 ∈ hcm := by
  obtain ⟨h1, h2⟩ := h.inv.rows r hr
  refine ⟨rowPoly_ok h.ok h1, ?_, fun t ht => (h.cols.1.mem_iff).mpr (h2 t ht)⟩
  rcases hr with hr | hr
  · exact (h.inv.mark _).mpr ⟨r, hr, rfl⟩
  · exact h.inv.trLead r hr

/-- All entries of a row are right of the leading column. -/
theorem MatInv.row_cols (h : MatInv O p els s hcm rrs trs) {r : MRow n} (hr : r ∈ s.rr ∨ r ∈ s.tr) :
    (∃ r', convRow hcm (rowPoly els r) = (leadCol els hcm r, 1) :: r') ∧
    (∀ t ∈ convRow hcm (rowPoly els r), leadCol els hcm r ≤ t.1 ∧ t.1 < hcm.length ∧ t.2 < p) ∧
    ((convRow hcm (rowPoly els r)).map Prod.fst).Nodup := by
  obtain ⟨h1, h2, h3⟩ := h.row hr
  refine ⟨?_, ?_, ?_⟩
  · obtain ⟨g, hg⟩ := h1.head
    refine ⟨convRow hcm g, ?_⟩
    unfold leadCol
    conv_lhs => rw [hg]
    rfl
  · intro t ht
    obtain ⟨x, hx, rfl⟩ := List.mem_map.mp ht
    refine ⟨?_, List.idxOf_lt_length_iff.mpr (h3 x hx), (h1.coeff x hx).2⟩
    rcases h1.terms x hx with he | hl
    · simp only [leadCol, he]; exact le_rfl
    · refine (idxOf_lt h.cols.2 (h3 _ h1.lead_mem) (h3 x hx) ?_).le
      by_cases hm : x.1 ∈ s.mark
      · exact Or.inr ⟨⟨fun _ => hm, fun _ => h2⟩, hl⟩
      · exact Or.inl ⟨h2, hm⟩
  · have : (convRow hcm (rowPoly els r)).map Prod.fst = ((rowPoly els r).map Prod.fst).map fun m => hcm.idxOf m := by
      simp [convRow, Function.comp_def]
    rw [this, List.Nodup, List.pairwise_map]
    refine List.Pairwise.imp_of_mem ?_ h1.sorted
    intro a b ha hb hab he
    obtain ⟨x, hx, rfl⟩ := List.mem_map.mp ha
    obtain ⟨y, hy, rfl⟩ := List.mem_map.mp hb
    have := idxOf_inj' (h3 x hx) (h3 y hy) he
    rw [this] at hab
    exact O.adm.irrefl _ hab

theorem MatInv.leadCols (h : MatInv O p els s hcm rrs trs) :
    rrs.map (leadCol els hcm) = List.range (nclOf s) := by
  have hmem : ∀ r ∈ s.rr, lead (rowPoly els r) ∈ hcm := fun r hr => by
    obtain ⟨h1, _, h3⟩ := h.row (Or.inl hr)
    exact h3 _ h1.lead_mem
  have hperm : (rrs.map (leadCol els hcm)).Perm (List.range (nclOf s)) := by
    refine (h.rr.map _).trans ?_
    rw [List.perm_ext_iff_of_nodup]
    · intro c
      rw [List.mem_map, List.mem_range]
      constructor
      · rintro ⟨r, hr, rfl⟩
        have hm := hmem r hr
        have hlt := List.idxOf_lt_length_iff.mpr hm
        apply (mark_iff_lt h.cols hlt).mp
        rw [List.getElem_idxOf]
        exact (h.inv.mark _).mpr ⟨r, hr, rfl⟩
      · intro hc
        have hlt : c < hcm.length := by
          have := List.length_filter_le (fun m => decide (m ∈ s.mark)) hcm
          rw [← ncl_eq h.cols] at this
          omega
        obtain ⟨r, hr, he⟩ := (h.inv.mark _).mp ((mark_iff_lt h.cols hlt).mpr hc)
        refine ⟨r, hr, ?_⟩
        unfold leadCol
        rw [he, idxOf_getElem' (cols_nodup h.cols)]
    · have hn := h.inv.leads
      have : s.rr.map (leadCol els hcm) = (s.rr.map fun r => lead (rowPoly els r)).map fun m => hcm.idxOf m := by
        simp [leadCol, Function.comp_def]
      rw [this, List.Nodup, List.pairwise_map]
      refine List.Pairwise.imp_of_mem ?_ hn
      intro a b ha hb hab he
      obtain ⟨x, hx, rfl⟩ := List.mem_map.mp ha
      obtain ⟨y, hy, rfl⟩ := List.mem_map.mp hb
      exact hab (idxOf_inj' (hmem x hx) (hmem y hy) he)
    · exact List.nodup_range
  refine hperm.eq_of_pairwise (le := (· ≤ ·)) (fun a b _ _ h1 h2 => le_antisymm h1 h2) ?_ ?_
  · rw [List.pairwise_map]; exact h.sorted
  · exact List.pairwise_lt_range.imp fun h => h.le

/-- The matrix satisfies the preconditions of the linear algebra. -/
theorem MatInv.pre (h : MatInv O p els s hcm rrs trs) :
    EchelonPre p (nclOf s) hcm.length (pivs0 els hcm rrs) (laRows els hcm trs)
      (fun t => leadCol els hcm trs[t]) := by
  have hlc := h.leadCols
  have hlen : rrs.length = nclOf s := by
    have := congrArg List.length hlc
    simpa using this
  refine ⟨?_, ?_, ?_, ?_, ?_⟩
  · rw [ncl_eq h.cols]; exact List.length_filter_le _ _
  · intro i r hir
    simp only [pivs0, Option.map_eq_some_iff] at hir
    obtain ⟨x, hx, rfl⟩ := hir
    have hi : leadCol els hcm x = i := by
      have : (rrs.map (leadCol els hcm))[i]? = some (leadCol els hcm x) := by
        rw [List.getElem?_map, hx]; rfl
      rw [hlc] at this
      obtain ⟨a1, a2⟩ := List.getElem?_eq_some_iff.mp this
      rw [List.getElem_range] at a2
      exact a2.symm
    have hxm : x ∈ s.rr := h.rr.mem_iff.mp (List.mem_of_getElem? hx)
    obtain ⟨b1, b2, b3⟩ := h.row_cols (Or.inl hxm)
    rw [hi] at b1 b2
    exact ⟨b1, fun t ht => (b2 t ht).1, b3, fun t ht => (b2 t ht).2⟩
  · intro c
    simp only [pivs0, ne_eq, Option.map_eq_none_iff, List.getElem?_eq_none_iff]
    omega
  · intro t
    have ht : trs[t] ∈ s.tr := h.tr.mem_iff.mp (List.getElem_mem _)
    obtain ⟨b1, b2, b3⟩ := h.row (Or.inr ht)
    exact (List.idxOf_lt_length_iff.mpr (b3 _ b1.lead_mem)).le
  · intro t
    have ht : trs[t] ∈ s.tr := h.tr.mem_iff.mp (List.getElem_mem _)
    obtain ⟨b1, b2, b3⟩ := h.row_cols (Or.inr ht)
    exact ⟨b3, b2⟩

end

/-! ### Linear algebra -/

theorem la_exists {P : Echelon.Par} {pivs : Nat → Option Row} {k : Nat} {rows : Fin k → Row} {sc : Fin k → Nat}
    (h : EchelonSound P pivs rows sc) : ∃ m c, Exec P m (initConf pivs rows sc) c ∧ ∀ t, (c.th t).finished = true := by
  by_contra hno
  push Not at hno
  obtain ⟨N, hN⟩ := h.bounded
  have : ∀ m, ∃ c, Exec P m (initConf pivs rows sc) c := by
    intro m
    induction m with
    | zero => exact ⟨_, .refl _⟩
    | succ m ih =>
      obtain ⟨c, hc⟩ := ih
      obtain ⟨t, ht⟩ := hno m c hc
      have hf : (c.th t).finished = false := by simpa using ht
      have hp := h.progress m c hc t hf
      generalize hr : thStep P c.pivs (c.th t) = res at hp
      cases res with
      | none => exact absurd rfl hp
      | some x => exact ⟨_, .step hc (.mk c t x.1 x.2 hf hr)⟩
  obtain ⟨c, hc⟩ := this (N + 1)
  have := hN _ c hc
  omega

theorem laResult_exists {p ncl ncols : Nat} (hp : p.Prime) (hp31 : p < 2 ^ 31) {pivs : Nat → Option Row} {k : Nat}
    {rows : Fin k → Row} {sc : Fin k → Nat} (h : EchelonPre p ncl ncols pivs rows sc) :
    ∃ R, LaResult p ncl ncols pivs rows sc R := by
  have hs := C47_parallel_echelon_31 p ncl ncols hp hp31 pivs rows sc h
  obtain ⟨m, c, he, hf⟩ := la_exists hs
  obtain ⟨R, hR, _⟩ := hs.correct m c he hf
  exact ⟨R, Or.inl ⟨m, c, he, hf, hR⟩⟩

theorem laResult_ok {p ncl ncols : Nat} (hp : p.Prime) (hp31 : p < 2 ^ 31) {pivs : Nat → Option Row} {k : Nat}
    {rows : Fin k → Row} {sc : Fin k → Nat} (h : EchelonPre p ncl ncols pivs rows sc) {R : Nat → Option Row}
    (hR : LaResult p ncl ncols pivs rows sc R) : IsReducedEchelon p ncl ncols pivs rows R := by
  rcases hR with ⟨m, c, he, hf, hi⟩ | ⟨h18, hn, m, c, he, hf, hi⟩
  · obtain ⟨R', hR', h'⟩ := (C47_parallel_echelon_31 p ncl ncols hp hp31 pivs rows sc h).correct m c he hf
    rw [hi] at hR'
    obtain rfl := Option.some.inj hR'
    exact h'
  · obtain ⟨R', hR', h'⟩ := (C47_parallel_echelon_17 p ncl ncols hp h18 hn pivs rows sc h).correct m c he hf
    rw [hi] at hR'
    obtain rfl := Option.some.inj hR'
    exact h'

/-! ### Vectors as polynomials -/

/-- The polynomial of a vector of coefficients. -/
noncomputable def phi (p : Nat) (hcm : List (Mon n)) : (Nat → ZMod p) →ₗ[ZMod p] MvPolynomial (Fin n) (ZMod p) :=
  ∑ c ∈ Finset.range hcm.length, (monomial (fs (hcm.getD c 0))) ∘ₗ LinearMap.proj (R := ZMod p) (φ := fun _ => ZMod p) c

theorem phi_single (p : Nat) (hcm : List (Mon n)) {c : Nat} (hc : c < hcm.length) (x : ZMod p) :
    phi p hcm (Pi.single c x) = monomial (fs (hcm.getD c 0)) x := by
  unfold phi
  rw [LinearMap.sum_apply, Finset.sum_eq_single c]
  · simp
  · intro d _ hd
    simp [Pi.single_eq_of_ne hd]
  · intro h
    exact absurd (Finset.mem_range.mpr hc) h

theorem phi_rvec (p : Nat) (hcm : List (Mon n)) : ∀ r : Row, (∀ t ∈ r, t.1 < hcm.length) →
    phi p hcm (rvec p r) = toMv p (backRow hcm r) := by
  intro r
  induction r with
  | nil => intro _; rw [rvec_nil, map_zero]; rfl
  | cons t r ih =>
    intro h
    have : backRow hcm (t :: r) = (hcm.getD t.1 0, t.2) :: backRow hcm r := rfl
    rw [rvec_cons, map_add, ih fun t ht => h t (List.mem_cons_of_mem _ ht), phi_single _ _ (h t List.mem_cons_self), this,
      toMv_cons]

theorem backRow_convRow (hcm : List (Mon n)) (f : Poly n) (h : ∀ t ∈ f, t.1 ∈ hcm) : backRow hcm (convRow hcm f) = f := by
  induction f with
  | nil => rfl
  | cons t f ih =>
    have : backRow hcm (convRow hcm (t :: f)) = (hcm.getD (hcm.idxOf t.1) 0, t.2) :: backRow hcm (convRow hcm f) := rfl
    rw [this, ih fun t ht => h t (List.mem_cons_of_mem _ ht),
      List.getD_eq_getElem _ _ (List.idxOf_lt_length_iff.mpr (h t List.mem_cons_self)), List.getElem_idxOf]

theorem mem_newPolys {hcm : List (Mon n)} {R : Nat → Option Row} {f : Poly n} :
    f ∈ newPolys hcm R ↔ ∃ c r, c < hcm.length ∧ R c = some r ∧ f = backRow hcm r := by
  unfold newPolys
  simp only [List.mem_filterMap, List.mem_range, Option.map_eq_some_iff]
  constructor
  · rintro ⟨c, hc, r, hr, rfl⟩; exact ⟨c, r, hc, hr, rfl⟩
  · rintro ⟨c, r, hc, hr, rfl⟩; exact ⟨c, hc, r, hr, rfl⟩

/-- What a round knows about its new elements. -/
structure NewOk (O : OKind) (p : Nat) (els : List (Poly n)) (s : Sym n) (N : List (Poly n)) : Prop where
  ok : ∀ f ∈ N, PolyOk O p f
  leads : (N.map lead).Nodup
  fresh : ∀ f ∈ N, lead f ∈ s.ms ∧ lead f ∉ s.mark
  span : Submodule.span (ZMod p) ({ g | ∃ r ∈ s.rr, g = toMv p (rowPoly els r) } ∪ { g | ∃ f ∈ N, g = toMv p f }) =
    Submodule.span (ZMod p) ({ g | ∃ r ∈ s.rr, g = toMv p (rowPoly els r) } ∪
      { g | ∃ r ∈ s.tr, g = toMv p (rowPoly els r) })

theorem MatInv.newOk {O : OKind} {p : Nat} {els : List (Poly n)} {s : Sym n} {hcm : List (Mon n)}
    {rrs trs : List (MRow n)} (h : MatInv O p els s hcm rrs trs) (hp : p.Prime) (hp31 : p < 2 ^ 31) {R : Nat → Option Row}
    (hR : LaResult p (nclOf s) hcm.length (pivs0 els hcm rrs) (laRows els hcm trs)
        (fun t => leadCol els hcm trs[t]) R) : NewOk O p els s (newPolys hcm R) := by
  obtain ⟨hrow, hspan⟩ := laResult_ok hp hp31 h.pre hR
  have hnd := cols_nodup h.cols
  have hlead : ∀ c r, R c = some r → lead (backRow hcm r) = hcm.getD c 0 := by
    intro c r hr
    obtain ⟨_, ⟨r', h2⟩, _⟩ := hrow c r hr
    rw [h2]
    rfl
  have hclt : ∀ c r, R c = some r → c < hcm.length := by
    intro c r hr
    obtain ⟨_, ⟨r', h2⟩, _, h4⟩ := hrow c r hr
    exact (h4 (c, 1) (by rw [h2]; exact List.mem_cons_self)).1
  refine ⟨?_, ?_, ?_, ?_⟩
  · intro f hf
    obtain ⟨c, r, hc, hr, rfl⟩ := mem_newPolys.mp hf
    obtain ⟨h1, ⟨r', h2⟩, h3, h4⟩ := hrow c r hr
    refine ⟨⟨backRow hcm r', ?_⟩, ?_, ?_⟩
    · rw [hlead c r hr, h2]
      rfl
    · have : (backRow hcm r).map Prod.fst = (r.map Prod.fst).map fun c => hcm.getD c 0 := by
        simp [backRow, Function.comp_def]
      rw [this, List.pairwise_map]
      have hge : ∀ a ∈ r.map Prod.fst, c ≤ a := by
        rw [h2, List.map_cons] at h3 ⊢
        rw [List.pairwise_cons] at h3
        intro a ha
        rcases List.mem_cons.mp ha with rfl | ha
        · exact le_rfl
        · exact (h3.1 a ha).le
      refine List.Pairwise.imp_of_mem ?_ h3
      intro a b ha hb hab
      have la : a < hcm.length := by
        obtain ⟨t, ht, rfl⟩ := List.mem_map.mp ha
        exact (h4 t ht).1
      have lb : b < hcm.length := by
        obtain ⟨t, ht, rfl⟩ := List.mem_map.mp hb
        exact (h4 t ht).1
      have ga := hge a ha
      have gb := hge b hb
      rw [List.getD_eq_getElem _ _ la, List.getD_eq_getElem _ _ lb]
      have := List.pairwise_iff_getElem.mp h.cols.2 a b la lb hab
      rcases this with h5 | h5
      · exact absurd ((mark_iff_lt h.cols la).mp h5.1) (by omega)
      · exact h5.2
    · intro t ht
      obtain ⟨x, hx, rfl⟩ := List.mem_map.mp ht
      exact ⟨(h4 x hx).2.1, (h4 x hx).2.2.1⟩
  · unfold newPolys
    rw [List.map_filterMap]
    refine List.Nodup.filterMap ?_ List.nodup_range
    intro a b m ha hb
    simp only [Option.mem_def, Option.map_eq_some_iff] at ha hb
    obtain ⟨f, ⟨r, hr, rfl⟩, h1⟩ := ha
    obtain ⟨g, ⟨r', hr', rfl⟩, h2⟩ := hb
    rw [hlead a r hr] at h1
    rw [hlead b r' hr'] at h2
    have la := hclt a r hr
    have lb := hclt b r' hr'
    rw [List.getD_eq_getElem _ _ la] at h1
    rw [List.getD_eq_getElem _ _ lb] at h2
    exact (List.Nodup.getElem_inj_iff hnd).mp (h1.trans h2.symm)
  · intro f hf
    obtain ⟨c, r, hc, hr, rfl⟩ := mem_newPolys.mp hf
    obtain ⟨h1, _⟩ := hrow c r hr
    rw [hlead c r hr, List.getD_eq_getElem _ _ hc]
    refine ⟨h.cols.1.mem_iff.mp (List.getElem_mem hc), ?_⟩
    rw [mark_iff_lt h.cols hc]
    omega
  · have hm := congrArg (Submodule.map (phi p hcm)) hspan
    rw [Submodule.map_span, Submodule.map_span, Set.image_union, Set.image_union] at hm
    have e1 : phi p hcm '' { v | ∃ j r, pivs0 els hcm rrs j = some r ∧ v = rvec p r } =
        { g | ∃ r ∈ s.rr, g = toMv p (rowPoly els r) } := by
      ext g
      constructor
      · rintro ⟨v, ⟨j, r, hj, rfl⟩, rfl⟩
        simp only [pivs0, Option.map_eq_some_iff] at hj
        obtain ⟨x, hx, rfl⟩ := hj
        have hxm : x ∈ s.rr := h.rr.mem_iff.mp (List.mem_of_getElem? hx)
        refine ⟨x, hxm, ?_⟩
        rw [phi_rvec _ _ _ fun t ht => ((h.row_cols (Or.inl hxm)).2.1 t ht).2.1,
          backRow_convRow _ _ (h.row (Or.inl hxm)).2.2]
      · rintro ⟨x, hx, rfl⟩
        obtain ⟨j, hj⟩ := List.mem_iff_getElem?.mp (h.rr.mem_iff.mpr hx)
        refine ⟨_, ⟨j, convRow hcm (rowPoly els x), by simp [pivs0, hj], rfl⟩, ?_⟩
        rw [phi_rvec _ _ _ fun t ht => ((h.row_cols (Or.inl hx)).2.1 t ht).2.1,
          backRow_convRow _ _ (h.row (Or.inl hx)).2.2]
    have e2 : (phi p hcm '' Set.range fun t => rvec p (laRows els hcm trs t)) =
        { g | ∃ r ∈ s.tr, g = toMv p (rowPoly els r) } := by
      ext g
      constructor
      · rintro ⟨v, ⟨t, rfl⟩, rfl⟩
        have ht : trs[t] ∈ s.tr := h.tr.mem_iff.mp (List.getElem_mem _)
        refine ⟨trs[t], ht, ?_⟩
        simp only [laRows]
        rw [phi_rvec _ _ _ fun x hx => ((h.row_cols (Or.inr ht)).2.1 x hx).2.1,
          backRow_convRow _ _ (h.row (Or.inr ht)).2.2]
      · rintro ⟨x, hx, rfl⟩
        obtain ⟨j, hj, rfl⟩ := List.mem_iff_getElem.mp (h.tr.mem_iff.mpr hx)
        refine ⟨_, ⟨⟨j, hj⟩, rfl⟩, ?_⟩
        simp only [laRows, Fin.getElem_fin]
        rw [phi_rvec _ _ _ fun x' hx' => ((h.row_cols (Or.inr hx)).2.1 x' hx').2.1,
          backRow_convRow _ _ (h.row (Or.inr hx)).2.2]
    have e3 : phi p hcm '' { v | ∃ j r, R j = some r ∧ v = rvec p r } =
        { g | ∃ f ∈ newPolys hcm R, g = toMv p f } := by
      ext g
      constructor
      · rintro ⟨v, ⟨j, r, hj, rfl⟩, rfl⟩
        refine ⟨backRow hcm r, mem_newPolys.mpr ⟨j, r, hclt j r hj, hj, rfl⟩, ?_⟩
        rw [phi_rvec]
        intro t ht
        exact ((hrow j r hj).2.2.2 t ht).1
      · rintro ⟨f, hf, rfl⟩
        obtain ⟨j, r, hj, hr, rfl⟩ := mem_newPolys.mp hf
        refine ⟨_, ⟨j, r, hr, rfl⟩, ?_⟩
        rw [phi_rvec]
        intro t ht
        exact ((hrow j r hr).2.2.2 t ht).1
    rw [e1, e2, e3] at hm
    exact hm

end Verif.F4
