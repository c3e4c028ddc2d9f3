import Verif.DenseProb
import Verif.Props.ProbLA

/-! C72: the dense variants of the linear algebra (options 1 and 42). -/

namespace Verif.Props
open Verif.RowReduce Verif.Normalize Verif.Echelon Verif.ProbLA Verif.DenseLA Verif.DenseProb

/-! ### The eliminations leave 0 or `p` at the pivot -/

theorem foldlM_frame {f : (Nat → Int) → Nat × Nat → Option (Nat → Int)}
    (hf : ∀ dr t dr', f dr t = some dr' → ∀ c, c ≠ t.1 → dr' c = dr c) (i : Nat) : ∀ (r : Row) (dr dr' : Nat → Int),
    r.foldlM f dr = some dr' → (∀ t ∈ r, t.1 ≠ i) → dr' i = dr i
  | [], dr, dr', h, _ => by
    rw [List.foldlM_nil] at h
    rw [← Option.some.inj h]
  | t :: r, dr, dr', h, hi => by
    rw [List.foldlM_cons] at h
    obtain ⟨d, h1, h2⟩ := Option.bind_eq_some_iff.mp h
    rw [foldlM_frame hf i r d dr' h2 (fun t ht => hi t (List.mem_cons_of_mem _ ht)),
      hf dr t d h1 i (Ne.symm (hi t List.mem_cons_self))]

theorem i64_eq {x y : Int} (h : i64 x = some y) : y = x := by
  unfold i64 at h
  split_ifs at h
  exact (Option.some.inj h).symm

theorem sub31_eq {p : Nat} {mul : Int} {dr dr' : Nat → Int} {t : Nat × Nat} (h : sub31 p mul dr t = some dr') :
    ∃ x, dr' = Function.update dr t.1 x ∧
      (x = dr t.1 - mul * t.2 ∧ 0 ≤ x ∨ x = dr t.1 - mul * t.2 + (p : Int) * p ∧ dr t.1 - mul * t.2 < 0) := by
  unfold sub31 at h
  obtain ⟨q, h1, h⟩ := Option.bind_eq_some_iff.mp h
  obtain ⟨x, h2, h⟩ := Option.bind_eq_some_iff.mp h
  obtain ⟨y, h3, h⟩ := Option.map_eq_some_iff.mp h
  have e1 := i64_eq h1
  have e2 := i64_eq h2
  refine ⟨y, h.symm, ?_⟩
  split_ifs at h3 with h4
  · have e3 := i64_eq h3
    subst e1 e2 e3
    exact Or.inr ⟨rfl, h4⟩
  · have e3 := Option.some.inj h3
    subst e1 e2 e3
    exact Or.inl ⟨rfl, by omega⟩

theorem add17_eq {mul : Int} {dr dr' : Nat → Int} {t : Nat × Nat} (h : add17 mul dr t = some dr') :
    dr' = Function.update dr t.1 (dr t.1 + mul * t.2) := by
  unfold add17 at h
  obtain ⟨q, h1, h⟩ := Option.bind_eq_some_iff.mp h
  obtain ⟨x, h2, h⟩ := Option.map_eq_some_iff.mp h
  have e1 := i64_eq h1
  have e2 := i64_eq h2
  subst e1 e2
  exact h.symm

theorem pivRow_tail {p ncols i : Nat} {r' : Row} (h : PivRow p ncols i ((i, 1) :: r')) : ∀ t ∈ r', t.1 ≠ i := by
  intro t ht e
  have := h.nodup
  rw [List.map_cons, List.nodup_cons] at this
  exact this.1 (List.mem_map.mpr ⟨t, ht, e⟩)

theorem elim31_piv {p ncols i : Nat} {r : Row} {x : Int} {dr dr' : Nat → Int} (h : PivRow p ncols i r)
    (hx : dr i = x) (e : elim31 p x r dr = some dr') : dr' i = 0 := by
  obtain ⟨r', rfl⟩ := h.head
  unfold elim31 at e
  rw [List.foldlM_cons] at e
  obtain ⟨d, h1, h2⟩ := Option.bind_eq_some_iff.mp e
  rw [foldlM_frame (f := sub31 p x) (fun dr t dr' h c hc => by
    obtain ⟨y, rfl, _⟩ := sub31_eq h
    exact Function.update_of_ne hc _ _) i r' d dr' h2 (pivRow_tail h)]
  obtain ⟨y, rfl, hy⟩ := sub31_eq h1
  simp only [Function.update_self]
  simp only [hx, Nat.cast_one, mul_one, sub_self] at hy
  omega

theorem elim17_piv {p ncols i : Nat} {r : Row} {x : Int} {dr dr' : Nat → Int} (h : PivRow p ncols i r)
    (hx : dr i = x) (e : elim17 p x r dr = some dr') : dr' i = p := by
  obtain ⟨r', rfl⟩ := h.head
  unfold elim17 at e
  rw [List.foldlM_cons] at e
  obtain ⟨d, h1, h2⟩ := Option.bind_eq_some_iff.mp e
  rw [foldlM_frame (f := add17 (p - x)) (fun dr t dr' h c hc => by
    rw [add17_eq h]
    exact Function.update_of_ne hc _ _) i r' d dr' h2 (pivRow_tail h)]
  rw [add17_eq h1]
  simp only [Function.update_self, hx, Nat.cast_one, mul_one]
  omega

theorem dpar31_ok (p ncl ncols : Nat) (hp : p.Prime) (hp31 : p < 2 ^ 31) (h : ncl ≤ ncols) :
    DParOk (par31 p ncl ncols) (Ok31 p) where
  toParOk := par31_ok p ncl ncols hp hp31 h
  init' := fun dr hd c => ⟨(hd c).1, by
    have h1 := (hd c).2
    simp only [par31] at h1
    have : (2 : Int) ≤ p := by exact_mod_cast hp.two_le
    nlinarith⟩
  piv := fun i r x dr dr' h hx e => by
    have := elim31_piv h hx e
    rw [this]
    exact ⟨le_refl _, by positivity⟩

theorem dpar17_ok (p ncl ncols : Nat) (hp : p.Prime) (hp18 : p < 2 ^ 18) (hn : ncols + 1 < 2 ^ 27)
    (h : ncl ≤ ncols) : DParOk (par17 p ncl ncols) (Ok17 p (p * p - 1)) where
  toParOk := par17_ok' p ncl ncols hp hp18 hn h
  init' := fun dr hd c => ⟨(hd c).1, by
    have h1 := (hd c).2
    simp only [par17] at h1
    have : (2 : Int) ≤ p := by exact_mod_cast hp.two_le
    push_cast
    nlinarith⟩
  piv := fun i r x dr dr' h hx e => by
    have := elim17_piv h hx e
    rw [this]
    exact ⟨by positivity, le_refl _⟩

/-! ### Option 1 -/

/-- Input: known pivots exactly in the columns left of `ncl`; the first entry of every row to be reduced is
its leftmost one. -/
structure DensePre (p ncl ncols : Nat) (pivs0 : Nat → Option Row) (rows : List Row) : Prop where
  left : ncl ≤ ncols
  piv : ∀ i r, pivs0 i = some r → PivRow p ncols i r
  known : ∀ c, pivs0 c ≠ none ↔ c < ncl
  rows : ∀ r ∈ rows, ∃ t q, r = t :: q ∧ InRow p ncols t.1 r

/-- Everything C72 claims about option 1 and one input. -/
structure DenseSound (P : Par) (pivs0 : Nat → Option Row) (rows : List Row) : Prop where
  /-- The sequential phases before the threads start have no undefined behaviour. -/
  phases : ∃ ds nps tbr, abcd P pivs0 rows = some ds ∧ splitRows P ds (fun _ => none) = some (nps, tbr)
  /-- No undefined behaviour: every unfinished thread can make its next step. -/
  progress : ∀ ds nps tbr, abcd P pivs0 rows = some ds → splitRows P ds (fun _ => none) = some (nps, tbr) →
    ∀ m c, DExec P id m (dinit P nps tbr) c → ∀ t, (c.th t).finished = false → dthStep P id c.pivs (c.th t) ≠ none
  /-- Executions have bounded length. -/
  bounded : ∀ ds nps tbr, abcd P pivs0 rows = some ds → splitRows P ds (fun _ => none) = some (nps, tbr) →
    ∃ M, ∀ m c, DExec P id m (dinit P nps tbr) c → m ≤ M
  /-- When all threads are finished the rest succeeds and gives a reduced echelon form of the input. -/
  correct : ∀ ds nps tbr, abcd P pivs0 rows = some ds → splitRows P ds (fun _ => none) = some (nps, tbr) →
    ∀ m c, DExec P id m (dinit P nps tbr) c → (∀ t, (c.th t).finished = true) →
    ∃ dm, dinterreduce P c.pivs = some dm ∧ IsReducedEchelon P.p P.ncl P.ncols pivs0 rows.get (toSparse dm)
  /-- The rows are the ones that the default variant (option 2) gives, for all executions of both. -/
  same : ∀ ds nps tbr, abcd P pivs0 rows = some ds → splitRows P ds (fun _ => none) = some (nps, tbr) →
    ∀ m c, DExec P id m (dinit P nps tbr) c → (∀ t, (c.th t).finished = true) →
    ∀ sc, EchelonPre P.p P.ncl P.ncols pivs0 rows.get sc → ∀ m' c', Exec P m' (initConf pivs0 rows.get sc) c' →
      (∀ t, (c'.th t).finished = true) →
    (dinterreduce P c.pivs).map toSparse = interreduce P c'.pivs

theorem npsOk_none (P : Par) : NpsOk P fun _ => none := fun _ _ h => absurd h (by simp)

theorem dinit_ok {P : Par} {Ok : Nat → (Nat → Int) → Prop} (hP : DParOk P Ok) {nps : Nat → Option Row}
    {tbr : List Row} (hn : NpsOk P nps) (ht : ∀ d ∈ tbr, DRow P d) :
    DConfOk P Ok (fun _ => none)
      (allSpan P.p nps ⊔ Submodule.span (ZMod P.p) { v | ∃ d ∈ tbr, v = rvec P.p d })
      (fun t : Fin tbr.length => rvec P.p (tbr.get t)) (dinit P nps tbr) := by
  refine ⟨⟨fun i r h => (hn i r h).1, fun _ _ h => absurd h (by simp), le_sup_left,
    fun i r h _ => (hn i r h).2⟩, fun t => ?_⟩
  have hd := ht _ (List.get_mem tbr t)
  have hran := fill_range P.p hP.prime.pos (tbr.get t) (fun u hu => (hd.bound u hu).2.2)
  have hlow : ∀ c, c < P.ncl → fill (tbr.get t) c = 0 := fun c hc => fill_zero _ _ (fun u hu => by
    have := (hd.bound u hu).1; omega)
  refine ⟨hP.hncl, hP.ok_of_zero (hP.elim.init _ hran) _, ?_, ?_, fun c _ => ⟨(hran c).1, (hran c).2.le⟩,
    Or.inl ⟨rfl, rfl, ?_⟩, fun l hl => by simp at hl, fun c h1 h2 => absurd h1 (by omega)⟩
  · simp only [dinit]
    rw [fill_vec P.p _ (hd.sorted.imp fun h => h.ne), sub_self]
    exact Submodule.zero_mem _
  · intro c hc
    exact fill_zero _ _ (fun u hu => by have := (hd.bound u hu).2.1; omega)
  · intro c hc
    simp only [vec]
    rw [hlow c hc]; exact Int.cast_zero

/-- Mask of an array of pivots without entries left of `ncl`. -/
theorem mask_eq {P : Par} {pivs : Nat → Option Row} (h : ∀ i, i < P.ncl → pivs i = none) :
    (fun c => if c < P.ncl then none else pivs c) = pivs := by
  funext c
  by_cases hc : c < P.ncl
  · simp only [if_pos hc]; exact (h c hc).symm
  · simp only [if_neg hc]

theorem sparse_zero {P : Par} {R : Nat → Option Row} (h : Rref P.p P.ncols R) (hl : ∀ i, i < P.ncl → R i = none) :
    ∀ x ∈ allSpan P.p R, ∀ c, c < P.ncl → x c = 0 := by
  intro x hx c hc
  refine span_vanish ?_ hx
  rintro v ⟨j, r, hr, rfl⟩
  refine (h.row j r hr).1.below ?_
  by_contra hlt
  rw [hl j (by omega)] at hr
  exact absurd hr (by simp)

theorem span_get (p : Nat) (rows : List Row) :
    { v | ∃ r ∈ rows, v = rvec p r } = Set.range fun t => rvec p (rows.get t) := by
  ext v
  constructor
  · rintro ⟨r, hr, rfl⟩
    obtain ⟨k, hk, rfl⟩ := List.mem_iff_getElem.mp hr
    exact ⟨⟨k, hk⟩, rfl⟩
  · rintro ⟨t, rfl⟩
    exact ⟨_, List.get_mem rows t, rfl⟩

theorem dthStep_mono {P : Par} {back : Nat → Nat} {pivs pivs' : Nat → Option Row} {x x' : DTh}
    (e : dthStep P back pivs x = some (x', pivs')) : ∀ i r, pivs i = some r → pivs' i = some r := by
  intro i r hr
  rcases x with ⟨lost, k, s⟩ | ⟨lost, dr, c, q⟩ | _ | _
  · simp only [dthStep] at e
    split_ifs at e
    · obtain ⟨_, _, e⟩ := Option.map_eq_some_iff.mp e
      rw [← (Prod.mk.inj e).2]; exact hr
    · obtain ⟨y, _, e⟩ := Option.map_eq_some_iff.mp e
      rcases y with _ | y
      · rw [← (Prod.mk.inj e).2]; exact hr
      · rw [← (Prod.mk.inj e).2]; exact hr
  · simp only [dthStep] at e
    rcases hc : pivs c with _ | q'
    · rw [hc] at e
      rw [← (Prod.mk.inj (Option.some.inj e)).2]
      have : i ≠ c := fun h => by rw [h, hc] at hr; exact absurd hr (by simp)
      rw [Function.update_of_ne this]; exact hr
    · rw [hc] at e
      rw [← (Prod.mk.inj (Option.some.inj e)).2]; exact hr
  · rw [← (Prod.mk.inj (Option.some.inj e)).2]; exact hr
  · rw [← (Prod.mk.inj (Option.some.inj e)).2]; exact hr

/-- The state after both sequential phases. -/
theorem dense_phases {P : Par} {Ok : Nat → (Nat → Int) → Prop} (hP : DParOk P Ok) {pivs0 : Nat → Option Row}
    {rows : List Row} (h : DensePre P.p P.ncl P.ncols pivs0 rows) :
    ∃ ds nps tbr, abcd P pivs0 rows = some ds ∧ splitRows P ds (fun _ => none) = some (nps, tbr) ∧
      NpsOk P nps ∧ (∀ d ∈ tbr, DRow P d) ∧
      allSpan P.p pivs0 ⊔ (allSpan P.p nps ⊔ Submodule.span (ZMod P.p) { v | ∃ d ∈ tbr, v = rvec P.p d }) =
        total P.p pivs0 rows.get := by
  obtain ⟨ds, e1, a1, a2⟩ := abcd_spec hP h.piv (fun c hc => (h.known c).mpr hc) rows h.rows
  obtain ⟨nps, tbr, e2, b1, b2, b3⟩ := splitRows_spec hP ds (fun _ => none) a1 (npsOk_none P)
  refine ⟨ds, nps, tbr, e1, e2, b1, b2, ?_⟩
  have h0 : allSpan P.p (fun _ => none) = ⊥ := by
    unfold allSpan
    rw [Submodule.span_eq_bot]
    rintro v ⟨j, r, hr, _⟩
    exact absurd hr (by simp)
  rw [b3, h0, bot_sup_eq, a2, span_get]
  rfl

/-- The result of any finished execution of option 1. -/
theorem dense_result {P : Par} {Ok : Nat → (Nat → Int) → Prop} (hP : DParOk P Ok) {pivs0 : Nat → Option Row}
    {rows : List Row} {nps : Nat → Option Row} {tbr : List Row}
    (hn : NpsOk P nps) (ht : ∀ d ∈ tbr, DRow P d)
    (hs : allSpan P.p pivs0 ⊔ (allSpan P.p nps ⊔ Submodule.span (ZMod P.p) { v | ∃ d ∈ tbr, v = rvec P.p d }) =
        total P.p pivs0 rows.get) {m : Nat} {c : DConf tbr.length} (he : DExec P id m (dinit P nps tbr) c)
    (hfin : ∀ t, (c.th t).finished = true) :
    ∃ dm, dinterreduce P c.pivs = some dm ∧ Rref P.p P.ncols (toSparse dm) ∧
      (∀ i, i < P.ncl → toSparse dm i = none) ∧
      allSpan P.p pivs0 ⊔ allSpan P.p (toSparse dm) = total P.p pivs0 rows.get := by
  have hback : BackOk P id fun _ => none := fun c h1 h2 => ⟨le_refl _, fun j h3 h4 => by simp only [id] at h3; omega⟩
  have hv : ∀ t : Fin tbr.length, rvec P.p (tbr.get t) ∈
      allSpan P.p nps ⊔ Submodule.span (ZMod P.p) { v | ∃ d ∈ tbr, v = rvec P.p d } := fun t =>
    Submodule.mem_sup_right (Submodule.subset_span ⟨_, List.get_mem tbr t, rfl⟩)
  obtain ⟨hc, _⟩ := dexec_ok hP hback hv (dinit_ok hP hn ht) he
  have hlow : ∀ i, i < P.ncl → c.pivs i = none := by
    intro i hi
    by_contra hne
    obtain ⟨r, hr⟩ := Option.ne_none_iff_exists'.mp hne
    have := (hc.1.fresh i r hr rfl).1
    omega
  have hm := mask_eq hlow
  have hnp : NpsOk P fun c' => if c' < P.ncl then none else c.pivs c' := by
    rw [hm]
    exact fun i r hr => ⟨hc.1.row i r hr, hc.1.fresh i r hr rfl⟩
  obtain ⟨dm, e, a1, a2, a3⟩ := dfinal_spec hP hnp
  refine ⟨dm, e, a1, a3, ?_⟩
  rw [a2, hm, ← hs]
  congr 1
  apply le_antisymm hc.1.sub
  apply sup_le
  · have hmono : ∀ (m : Nat) (c0 c1 : DConf tbr.length), DExec P id m c0 c1 →
        ∀ i r, c0.pivs i = some r → c1.pivs i = some r := by
      intro m c0 c1 he
      induction he with
      | refl => exact fun _ _ h => h
      | step _ hst ih =>
        intro i r hr
        have h1 := ih i r hr
        rcases hst with ⟨t, x, pivs', hf, e⟩
        exact dthStep_mono e i r h1
    exact allSpan_mono (hmono _ _ _ he)
  · apply Submodule.span_le.mpr
    rintro _ ⟨d, hd, rfl⟩
    obtain ⟨k, hk, rfl⟩ := List.mem_iff_getElem.mp hd
    have h1 := hc.2 ⟨k, hk⟩
    have h2 := hfin ⟨k, hk⟩
    rcases hx : c.th ⟨k, hk⟩ with _ | _ | _ | _
    · rw [hx] at h2; simp [DTh.finished] at h2
    · rw [hx] at h2; simp [DTh.finished] at h2
    · rw [hx] at h1; exact h1
    · rw [hx] at h1; exact h1

theorem denseSound {P : Par} {Ok : Nat → (Nat → Int) → Prop} (hP : DParOk P Ok) {pivs0 : Nat → Option Row}
    {rows : List Row} (h : DensePre P.p P.ncl P.ncols pivs0 rows) : DenseSound P pivs0 rows := by
  obtain ⟨ds, nps, tbr, e1, e2, hn, ht, hs⟩ := dense_phases hP h
  have hback : BackOk P id fun _ => none := fun c h1 h2 => ⟨le_refl _, fun j h3 h4 => by simp only [id] at h3; omega⟩
  have hv : ∀ t : Fin tbr.length, rvec P.p (tbr.get t) ∈
      allSpan P.p nps ⊔ Submodule.span (ZMod P.p) { v | ∃ d ∈ tbr, v = rvec P.p d } := fun t =>
    Submodule.mem_sup_right (Submodule.subset_span ⟨_, List.get_mem tbr t, rfl⟩)
  have hinit := dinit_ok hP hn ht
  have uniq : ∀ ds' nps' tbr', abcd P pivs0 rows = some ds' → splitRows P ds' (fun _ => none) = some (nps', tbr') →
      nps' = nps ∧ tbr' = tbr := by
    intro ds' nps' tbr' f1 f2
    rw [e1] at f1
    rw [← Option.some.inj f1, e2] at f2
    exact ⟨(Prod.mk.inj (Option.some.inj f2)).1.symm, (Prod.mk.inj (Option.some.inj f2)).2.symm⟩
  refine ⟨⟨ds, nps, tbr, e1, e2⟩, ?_, ?_, ?_, ?_⟩
  · intro ds' nps' tbr' f1 f2 m c he t hf
    obtain ⟨rfl, rfl⟩ := uniq _ _ _ f1 f2
    obtain ⟨hc, _⟩ := dexec_ok hP hback hv hinit he
    obtain ⟨x, pivs', e, _⟩ := dthStep_ok hP hback (hv t) hc.1 (hc.2 t) hf
    rw [e]
    exact Option.some_ne_none _
  · intro ds' nps' tbr' f1 f2
    obtain ⟨rfl, rfl⟩ := uniq _ _ _ f1 f2
    refine ⟨∑ t, dmu P ((dinit P nps' tbr').th t), fun m c he => ?_⟩
    exact le_trans (Nat.le_add_right _ _) (dexec_ok hP hback hv hinit he).2
  · intro ds' nps' tbr' f1 f2 m c he hfin
    obtain ⟨rfl, rfl⟩ := uniq _ _ _ f1 f2
    obtain ⟨dm, e, a1, a2, a3⟩ := dense_result hP hn ht hs he hfin
    refine ⟨dm, e, ?_, ?_⟩
    · intro i r hir
      obtain ⟨b1, b3, b2⟩ := a1.row i r hir
      refine ⟨?_, b1.head, b3, fun t ht => ⟨(b1.bound t ht).1, b2 t ht, (b1.bound t ht).2,
        a1.red i r hir t ht⟩⟩
      by_contra hlt
      rw [a2 i (by omega)] at hir
      exact absurd hir (by simp)
    · rw [Submodule.span_union, Submodule.span_union]
      exact a3
  · intro ds' nps' tbr' f1 f2 m c he hfin sc hpre m' c' he' hfin'
    obtain ⟨rfl, rfl⟩ := uniq _ _ _ f1 f2
    obtain ⟨dm, e, a1, a2, a3⟩ := dense_result hP hn ht hs he hfin
    have hinit' := init_ok (Ok := Ok) hP.toParOk h.piv (fun c hc => (h.known c).mpr hc) hpre.start hpre.rows
    have hv' : ∀ t, rvec P.p (rows.get t) ∈ total P.p pivs0 rows.get := fun t =>
      Submodule.mem_sup_right (Submodule.subset_span ⟨t, rfl⟩)
    obtain ⟨hc', _⟩ := exec_ok hP.toParOk hv' hinit' he'
    obtain ⟨R', e', a1', a2', a3', a4'⟩ := interreduce_ok hP.toParOk h.known hc' hfin'
    have z : ∀ x ∈ allSpan P.p (toSparse dm), ∀ c, pivs0 c ≠ none → x c = 0 := fun x hx c hc =>
      sparse_zero a1 a2 x hx c ((h.known c).mp hc)
    have z' : ∀ x ∈ allSpan P.p R', ∀ c, pivs0 c ≠ none → x c = 0 := fun x hx c hc =>
      a3' x hx c ((h.known c).mp hc)
    have hs := a3.trans a2'.symm
    rw [e, e', Option.map_some, a1.unique hP.prime.one_lt a1' (le_antisymm (span_determined h.piv z z' hs)
      (span_determined h.piv z' z hs.symm))]

/-- C72, option 1, primes below `2^31`. -/
theorem C72_dense_31 (p ncl ncols : Nat) (hp : p.Prime) (hp31 : p < 2 ^ 31)
    (pivs0 : Nat → Option Row) (rows : List Row) (h : DensePre p ncl ncols pivs0 rows) :
    DenseSound (par31 p ncl ncols) pivs0 rows :=
  denseSound (P := par31 p ncl ncols) (dpar31_ok p ncl ncols hp hp31 h.left) h

/-- C72, option 1 with the lazy reduction, primes below `2^18`, fewer than `2^27 - 1` columns. -/
theorem C72_dense_17 (p ncl ncols : Nat) (hp : p.Prime) (hp18 : p < 2 ^ 18) (hn : ncols + 1 < 2 ^ 27)
    (pivs0 : Nat → Option Row) (rows : List Row) (h : DensePre p ncl ncols pivs0 rows) :
    DenseSound (par17 p ncl ncols) pivs0 rows :=
  denseSound (P := par17 p ncl ncols) (dpar17_ok p ncl ncols hp hp18 hn h.left) h

/-! ### Option 42 -/

/-- Everything C72 claims about option 42 and one input; compare `ProbSound`. -/
structure DenseProbSound (P : Par) (N : Nat) (pivs0 : Nat → Option Row) (rows : List Row) : Prop where
  /-- No undefined behaviour: every unfinished block can make its next step, whatever numbers are drawn. -/
  progress : ∀ m c, DPExec P N (blocksOf rows) m (dprobInit pivs0 _) c → ∀ i, (c.th i).finished = false →
    ∀ mull : Nat → Nat, (∀ k, mull k < N) → dblkStep P (blocksOf rows i) mull c.pivs (c.th i) ≠ none
  /-- Executions have bounded length, whatever numbers are drawn. -/
  bounded : ∃ M, ∀ m c, DPExec P N (blocksOf rows) m (dprobInit pivs0 _) c → m ≤ M
  /-- The rest succeeds; its rows have the shape of a reduced echelon form and lie in the space spanned by the
  input. -/
  sound : ∀ m c, DPExec P N (blocksOf rows) m (dprobInit pivs0 _) c → (∀ i, (c.th i).finished = true) →
    ∃ dm, dinterreduce P c.pivs = some dm ∧ ReducedShape P.p P.ncl P.ncols (toSparse dm) ∧
      outSpan P.p pivs0 (toSparse dm) ≤ inSpan P.p pivs0 rows
  /-- A block with a row outside of the result ended with a draw whose combination lies in the space of the
  result. -/
  missed : ∀ m c, DPExec P N (blocksOf rows) m (dprobInit pivs0 _) c → (∀ i, (c.th i).finished = true) →
    ∀ dm, dinterreduce P c.pivs = some dm →
    ∀ i, (∀ r ∈ blocksOf rows i, rvec P.p r ∈ outSpan P.p pivs0 (toSparse dm)) ∨
      ∃ mull : Nat → Nat, (∀ k, mull k < N) ∧ c.th i = .fin (some mull) ∧
        randomComb P.p (blocksOf rows i) mull ∈ outSpan P.p pivs0 (toSparse dm)
  /-- If no row is missed, the result is the one of the exact variant, for all executions of both. -/
  exact_ : ∀ m c, DPExec P N (blocksOf rows) m (dprobInit pivs0 _) c → (∀ i, (c.th i).finished = true) →
    ∀ dm, dinterreduce P c.pivs = some dm → (∀ r ∈ rows, rvec P.p r ∈ outSpan P.p pivs0 (toSparse dm)) →
    ∀ sc, EchelonPre P.p P.ncl P.ncols pivs0 rows.get sc → ∀ m' c', Exec P m' (initConf pivs0 rows.get sc) c' →
      (∀ t, (c'.th t).finished = true) → interreduce P c'.pivs = some (toSparse dm)

/-- The draws of a finished block are below `N`. -/
def ddrawnOk (N : Nat) : DBTh → Prop
  | .idle _ last => ∀ m, last = some m → ∀ k, m k < N
  | .work _ m _ => ∀ k, m k < N
  | .fin last => ∀ m, last = some m → ∀ k, m k < N

theorem dblkStep_drawn {P : Par} {N : Nat} {blk : List Row} {mull : Nat → Nat} {pivs pivs' : Nat → Option Row}
    {x x' : DBTh} (hm : ∀ k, mull k < N) (h : ddrawnOk N x) (e : dblkStep P blk mull pivs x = some (x', pivs')) :
    ddrawnOk N x' := by
  rcases x with ⟨b, last⟩ | ⟨b, m, x⟩ | last
  · simp only [dblkStep] at e
    split_ifs at e
    · rw [Option.map_eq_some_iff] at e
      obtain ⟨_, _, e⟩ := e
      rw [← (Prod.mk.inj e).1]
      exact hm
    · rw [← (Prod.mk.inj (Option.some.inj e)).1]
      exact h
  · have key : ∀ y, (∃ b', y = DBTh.idle b' (some m)) ∨ (∃ z, y = DBTh.work b m z) → ddrawnOk N y := by
      rintro y (⟨b', rfl⟩ | ⟨z, rfl⟩)
      · intro m' hm'; rw [← Option.some.inj hm']; exact h
      · exact h
    rcases x with _ | _ | _ | _
    · simp only [dblkStep, Option.map_eq_some_iff] at e
      obtain ⟨q, _, e⟩ := e
      exact key _ (Or.inr ⟨_, (Prod.mk.inj e).1.symm⟩)
    · simp only [dblkStep, Option.map_eq_some_iff] at e
      obtain ⟨q, _, e⟩ := e
      exact key _ (Or.inr ⟨_, (Prod.mk.inj e).1.symm⟩)
    · exact key _ (Or.inl ⟨_, (Prod.mk.inj (Option.some.inj e)).1.symm⟩)
    · exact key _ (Or.inl ⟨_, (Prod.mk.inj (Option.some.inj e)).1.symm⟩)
  · rw [← (Prod.mk.inj (Option.some.inj e)).1]
    exact h

theorem dpexec_drawn {P : Par} {N : Nat} {nb : Nat} {blk : Fin nb → List Row} {m : Nat} {c c' : DPConf nb}
    (h : ∀ i, ddrawnOk N (c.th i)) (he : DPExec P N blk m c c') : ∀ i, ddrawnOk N (c'.th i) := by
  induction he with
  | refl => exact h
  | step _ hs ih =>
    have ih := ih h
    rcases hs with ⟨t, mull, x, pivs', hf, hm, e⟩
    intro i
    by_cases hi : i = t
    · subst hi; simp only [Function.update_self]; exact dblkStep_drawn hm (ih i) e
    · simp only [Function.update_of_ne hi]; exact ih i

/-- Interreduction and conversion of the pivots of option 42. -/
theorem dfinal_piv {P : Par} {Ok : Nat → (Nat → Int) → Prop} (hP : DParOk P Ok) {pivs0 pivs : Nat → Option Row}
    (hcl : ∀ c, pivs0 c ≠ none ↔ c < P.ncl) {T : Submodule (ZMod P.p) (Nat → ZMod P.p)}
    (h : DPivOk P pivs0 pivs T) :
    ∃ dm, dinterreduce P pivs = some dm ∧ Rref P.p P.ncols (toSparse dm) ∧
      allSpan P.p pivs0 ⊔ allSpan P.p (toSparse dm) = allSpan P.p pivs ∧ (∀ i, i < P.ncl → toSparse dm i = none) := by
  have h0 : ∀ i, P.ncl ≤ i → pivs0 i = none := by
    intro i hi
    by_contra hne
    have := (hcl i).mp hne
    omega
  have hn : NpsOk P fun c => if c < P.ncl then none else pivs c := by
    intro i r hr
    simp only at hr
    split_ifs at hr with hi
    exact ⟨h.row i r hr, h.fresh i r hr (h0 i (by omega))⟩
  obtain ⟨dm, e, a1, a2, a3⟩ := dfinal_spec hP hn
  refine ⟨dm, e, a1, ?_, a3⟩
  rw [a2]
  apply le_antisymm
  · refine sup_le (allSpan_mono h.ext) (allSpan_mono fun i r hr => ?_)
    split_ifs at hr
    exact hr
  · apply Submodule.span_le.mpr
    rintro v ⟨j, r, hr, rfl⟩
    by_cases hj : j < P.ncl
    · obtain ⟨q, hq⟩ := Option.ne_none_iff_exists'.mp ((hcl j).mpr hj)
      have := h.ext j q hq
      rw [hr] at this
      rw [Option.some.inj this]
      exact Submodule.mem_sup_left (Submodule.subset_span ⟨j, q, hq, rfl⟩)
    · refine Submodule.mem_sup_right (Submodule.subset_span ⟨j, r, ?_, rfl⟩)
      simp only [if_neg hj]; exact hr

theorem denseProbSound {P : Par} {Ok : Nat → (Nat → Int) → Prop} (hP : DParOk P Ok) {N : Nat}
    (hD : DrawOk P Ok N) {pivs0 : Nat → Option Row} {rows : List Row}
    (h : ProbPre P.p P.ncl P.ncols pivs0 rows) : DenseProbSound P N pivs0 rows := by
  have hr : ∀ i, ∀ r ∈ blocksOf rows i, ∀ t ∈ r, t.1 < P.ncols ∧ t.2 < P.p :=
    fun i r hr => (h.rows r (mem_of_block hr)).2
  have hT : ∀ i, blkSpan P.p (blocksOf rows i) ≤ inSpan P.p pivs0 rows := by
    intro i
    apply Submodule.span_le.mpr
    rintro _ ⟨k, rfl⟩
    exact Submodule.subset_span (Or.inr ⟨_, mem_of_block (List.get_mem (blocksOf rows i) k), rfl⟩)
  have hcl : ∀ c, c < P.ncl → pivs0 c ≠ none := fun c hc => (h.known c).mpr hc
  have hinit : DPConfOk P Ok pivs0 (inSpan P.p pivs0 rows) (blocksOf rows) (dprobInit pivs0 _) :=
    dprobInit_ok h.piv (Submodule.span_mono Set.subset_union_left) _
  refine ⟨?_, ⟨∑ i, dbmu P (blocksOf rows i) ((dprobInit pivs0 _).th i), fun m c he => ?_⟩, ?_, ?_, ?_⟩
  · intro m c he i hf mull hm
    obtain ⟨hc, _⟩ := dpexec_ok hP hD hr hT hcl hinit he
    obtain ⟨x', pivs', e, _⟩ := dblkStep_ok hP hD (hr i) (hT i) hcl hc.1 (hc.2 i) hf hm
    rw [e]
    exact Option.some_ne_none _
  · have := (dpexec_ok hP hD hr hT hcl hinit he).2
    exact le_trans (Nat.le_add_right _ _) this
  · intro m c he hfin
    obtain ⟨hc, _⟩ := dpexec_ok hP hD hr hT hcl hinit he
    obtain ⟨dm, e, a1, a2, a4⟩ := dfinal_piv hP h.known hc.1
    refine ⟨dm, e, ?_, ?_⟩
    · intro i r hir
      obtain ⟨b1, b3, b2⟩ := a1.row i r hir
      refine ⟨?_, b1.head, b3, fun t ht => ⟨(b1.bound t ht).1, b2 t ht, (b1.bound t ht).2,
        a1.red i r hir t ht⟩⟩
      by_contra hlt
      rw [a4 i (by omega)] at hir
      exact absurd hir (by simp)
    · rw [outSpan_eq, a2]
      exact hc.1.sub
  · intro m c he hfin dm hR i
    obtain ⟨hc, _⟩ := dpexec_ok hP hD hr hT hcl hinit he
    have hd := dpexec_drawn (c := dprobInit pivs0 _) (fun i m hm => by simp at hm) he i
    obtain ⟨dm', e, a1, a2, a4⟩ := dfinal_piv hP h.known hc.1
    rw [hR] at e
    rw [← Option.some.inj e] at a2
    rw [outSpan_eq, a2]
    have hb := hc.2 i
    have hf := hfin i
    rcases hx : c.th i with _ | _ | last
    · rw [hx] at hf; simp [DBTh.finished] at hf
    · rw [hx] at hf; simp [DBTh.finished] at hf
    · rw [hx] at hb hd
      rcases hb with hb | ⟨mull, rfl, hb⟩
      · exact Or.inl (fun r hr => hb (rvec_mem_blkSpan hr))
      · exact Or.inr ⟨mull, hd mull rfl, rfl, hb⟩
  · intro m c he hfin dm hR hall sc hpre m' c' he' hfin'
    obtain ⟨hc, _⟩ := dpexec_ok hP hD hr hT hcl hinit he
    obtain ⟨dm1, e, a1, a2, a4⟩ := dfinal_piv hP h.known hc.1
    rw [hR] at e
    rw [← Option.some.inj e] at a1 a2 a4
    have hinit' := init_ok (Ok := Ok) hP.toParOk h.piv hcl hpre.start hpre.rows
    have hv : ∀ t, rvec P.p (rows.get t) ∈ total P.p pivs0 rows.get := fun t =>
      Submodule.mem_sup_right (Submodule.subset_span ⟨t, rfl⟩)
    obtain ⟨hc', _⟩ := exec_ok hP.toParOk hv hinit' he'
    obtain ⟨R', e', a1', a2', a3', a4'⟩ := interreduce_ok hP.toParOk h.known hc' hfin'
    have z : ∀ x ∈ allSpan P.p (toSparse dm), ∀ c, pivs0 c ≠ none → x c = 0 := fun x hx c hc =>
      sparse_zero a1 a4 x hx c ((h.known c).mp hc)
    have z' : ∀ x ∈ allSpan P.p R', ∀ c, pivs0 c ≠ none → x c = 0 := fun x hx c hc =>
      a3' x hx c ((h.known c).mp hc)
    have hs : allSpan P.p pivs0 ⊔ allSpan P.p (toSparse dm) = allSpan P.p pivs0 ⊔ allSpan P.p R' := by
      rw [a2']
      apply le_antisymm
      · rw [a2]
        refine hc.1.sub.trans ?_
        unfold inSpan
        rw [span_get, Submodule.span_union]
        exact le_refl _
      · apply sup_le le_sup_left
        apply Submodule.span_le.mpr
        rintro _ ⟨t, rfl⟩
        have := hall _ (List.get_mem rows t)
        rw [outSpan_eq] at this
        exact this
    rw [e', a1.unique hP.prime.one_lt a1' (le_antisymm (span_determined h.piv z z' hs)
      (span_determined h.piv z' z hs.symm))]

/-- C72, option 42, primes below `2^31`; multipliers below the prime (`rand() % fc`), so `C68_bad_draws` bounds
the bad draws by one in `p`. -/
theorem C72_dense_probabilistic_31 (p ncl ncols : Nat) (hp : p.Prime) (hp31 : p < 2 ^ 31)
    (pivs0 : Nat → Option Row) (rows : List Row) (h : ProbPre p ncl ncols pivs0 rows) :
    DenseProbSound (par31 p ncl ncols) p pivs0 rows :=
  denseProbSound (P := par31 p ncl ncols) (dpar31_ok p ncl ncols hp hp31 h.left)
    ⟨by
      simp only [par31]
      have : (p : Int) < 2 ^ 31 := by exact_mod_cast hp31
      have h0 : (0 : Int) < p := by exact_mod_cast hp.pos
      nlinarith, le_refl _, fun _ h => h⟩ h

/-- C72, option 42 with the lazy reduction, primes below `2^18`, fewer than `2^27 - 1` columns. -/
theorem C72_dense_probabilistic_17 (p ncl ncols : Nat) (hp : p.Prime) (hp18 : p < 2 ^ 18)
    (hn : ncols + 1 < 2 ^ 27) (pivs0 : Nat → Option Row) (rows : List Row)
    (h : ProbPre p ncl ncols pivs0 rows) : DenseProbSound (par17 p ncl ncols) p pivs0 rows :=
  denseProbSound (P := par17 p ncl ncols) (dpar17_ok p ncl ncols hp hp18 hn h.left)
    ⟨by
      simp only [par17]
      have : (p : Int) < 2 ^ 18 := by exact_mod_cast hp18
      have h0 : (0 : Int) < p := by exact_mod_cast hp.pos
      nlinarith, le_refl _, fun dr hdr c => ⟨(hdr c).1, by
        have := (hdr c).2
        simp only [par17] at this
        push_cast
        linarith⟩⟩ h

/-- Hypotheses of C72 for a concrete matrix. -/
example : DensePre 7 1 5 (fun i => if i = 0 then some [(0, 1), (2, 4), (3, 6)] else none)
    [[(0, 2), (1, 3), (4, 1)], [(0, 5), (2, 2), (1, 1)], [(0, 3), (4, 6)], [(1, 1)]] := by
  refine ⟨by decide, ?_, ?_, ?_⟩
  · intro i r h
    split_ifs at h with h1
    subst h1; rw [← Option.some.inj h]; exact ⟨⟨_, rfl⟩, by decide, by decide, by decide⟩
  · intro c
    by_cases h : c = 0
    · simp [h]
    · simp [h]
  · intro r hr
    simp only [List.mem_cons, List.not_mem_nil, or_false] at hr
    rcases hr with rfl | rfl | rfl | rfl <;> exact ⟨_, _, rfl, by decide, by decide⟩

end Verif.Props
