import Verif.Props.LinAlg
import Mathlib.Data.Finset.Card

/-! What the tracer observes of the linear algebra: which rows became new pivots and which known pivots
were used (src/neogb/la_ff_32.c 305-577, 964-1241, 2588-2763, src/neogb/tools.c 41-152). -/

namespace Verif.Echelon
open Verif.RowReduce Verif.Normalize Verif.Props

/-- The row was entered as a pivot: `mat->tr[i]` is not `NULL` afterwards, la_ff_32.c 2655-2690. -/
def Th.isWon : Th → Bool
  | .won => true
  | _ => false

/-- The bits set in `rba` by the column loop from column `i` on, la_ff_32.c 360-369 and 1026-1036: the column
has a nonzero entry after reduction modulo `p` and there is a pivot for it.  In the C code the bits are set
inside the loop. -/
def usedLoop (elim : Int → Row → (Nat → Int) → Option (Nat → Int)) (p : Nat) (pivs : Nat → Option Row) :
    Nat → Nat → St → List Nat
  | 0, _, _ => []
  | cnt + 1, i, s =>
    (if Int.tmod (s.dr i) p ≠ 0 ∧ pivs i ≠ none then [i] else []) ++
      match colStep elim p pivs s i with
      | none => []
      | some s' => usedLoop elim p pivs cnt (i + 1) s'

/-- `rba` of one row: bits are set only for columns left of `ncl` (la_ff_32.c 366, 1033).  These columns all have
known pivots, which never change, and every further pass of the row starts right of them, so the first part
of the first pass determines the bits. -/
def rba (P : Par) (pivs : Nat → Option Row) (sc : Nat) (r : Row) : List Nat :=
  usedLoop P.elim P.p pivs (P.ncl - sc) sc { dr := fill r, np := none, k := 0 }

/-! ### Rows which became pivots -/

/-- A step enters a pivot and the row is finished, or nothing shared is changed. -/
theorem thStep_cases {P : Par} {pivs pivs' : Nat → Option Row} {x x' : Th} (h : thStep P pivs x = some (x', pivs'))
    (hf : x.finished = false) : (x'.isWon = false ∧ pivs' = pivs) ∨
    ∃ st f dr t r, x = .cas st f dr (t :: r) ∧ pivs t.1 = none ∧ x' = .won ∧ pivs' = Function.update pivs t.1 (some (t :: r)) := by
  rcases x with ⟨st, i, f, s⟩ | ⟨st, f, dr, r⟩ | _ | _
  · left
    simp only [thStep] at h
    split_ifs at h with h1 h2 h3
    · simp only [Option.map_eq_some_iff] at h
      obtain ⟨s', _, h⟩ := h
      simp only [Prod.mk.injEq] at h
      rw [← h.1, ← h.2]
      exact ⟨rfl, rfl⟩
    · simp only [Option.some.injEq, Prod.mk.injEq] at h
      rw [← h.1, ← h.2]
      exact ⟨rfl, rfl⟩
    · simp only [Option.map_eq_some_iff] at h
      obtain ⟨s', _, h⟩ := h
      simp only [Prod.mk.injEq] at h
      rw [← h.1, ← h.2]
      exact ⟨rfl, rfl⟩
  · rcases r with _ | ⟨t, r⟩
    · simp [thStep] at h
    · rcases hp : pivs t.1 with _ | q
      · right
        simp only [thStep, hp, Option.some.injEq, Prod.mk.injEq] at h
        exact ⟨st, f, dr, t, r, rfl, hp, h.1.symm, h.2.symm⟩
      · left
        simp only [thStep, hp, Option.some.injEq, Prod.mk.injEq] at h
        rw [← h.1, ← h.2]
        exact ⟨rfl, rfl⟩
  · simp [Th.finished] at hf
  · simp [Th.finished] at hf

theorem not_won {x : Th} (h : x.finished = false) : x.isWon = false := by
  cases x <;> simp_all [Th.finished, Th.isWon]

/-- The new pivots come from the rows that were entered, one each. -/
structure WonInv (P : Par) (pivs0 : Nat → Option Row) {n : Nat} (rows : Fin n → Row) (c : Conf n) : Prop where
  span : allSpan P.p c.pivs ≤ allSpan P.p pivs0 ⊔
    Submodule.span (ZMod P.p) { v | ∃ t, (c.th t).isWon = true ∧ v = rvec P.p (rows t) }
  col : ∃ f : Fin n → Nat, (∀ t, (c.th t).isWon = true → c.pivs (f t) ≠ none ∧ pivs0 (f t) = none) ∧
    (∀ t t', (c.th t).isWon = true → (c.th t').isWon = true → f t = f t' → t = t') ∧
    ∀ j, c.pivs j ≠ none → pivs0 j = none → ∃ t, (c.th t).isWon = true ∧ f t = j

theorem wonInv_step {P : Par} {Ok : Nat → (Nat → Int) → Prop} {pivs0 : Nat → Option Row}
    {T : Submodule (ZMod P.p) (Nat → ZMod P.p)} {n : Nat} {rows : Fin n → Row} {c c' : Conf n}
    (hc : ConfOk P Ok pivs0 T (fun t => rvec P.p (rows t)) c) (h : WonInv P pivs0 rows c) (hs : Step P c c') :
    WonInv P pivs0 rows c' := by
  rcases hs with ⟨t, x, pivs', hf, e⟩
  have hnw := not_won hf
  have hx := hc.2 t
  rcases thStep_cases e hf with ⟨h1, rfl⟩ | ⟨st, f, dr, a, r, h1, h2, rfl, rfl⟩
  · have hw : ∀ t', ((Function.update c.th t x) t').isWon = (c.th t').isWon := by
      intro t'
      by_cases ht : t' = t
      · subst ht; rw [Function.update_self, h1, hnw]
      · rw [Function.update_of_ne ht]
    obtain ⟨s1, s2⟩ := h
    exact ⟨by simpa only [hw] using s1, by simpa only [hw] using s2⟩
  · have hw : ∀ t', ((Function.update c.th t .won) t').isWon = true ↔ (c.th t').isWon = true ∨ t' = t := by
      intro t'
      by_cases ht : t' = t
      · subst ht; rw [Function.update_self]; simp [Th.isWon]
      · rw [Function.update_of_ne ht]; simp [ht]
    rw [h1] at hx
    obtain ⟨g1, _, _, _, ⟨col, g5, _⟩, ⟨_, g6⟩, u, _, g7⟩ := hx
    have hcol : col = a.1 := by
      obtain ⟨r', hr'⟩ := g5.head
      have := (List.cons.inj hr').1
      rw [this]
    have ha0 : pivs0 a.1 = none := (g6 a List.mem_cons_self).2
    obtain ⟨s1, fc, f1, f2, f3⟩ := h
    refine ⟨?_, Function.update fc t a.1, ?_, ?_, ?_⟩
    · have hmono : allSpan P.p pivs0 ⊔ Submodule.span (ZMod P.p) { v | ∃ t, (c.th t).isWon = true ∧ v = rvec P.p (rows t) } ≤
          allSpan P.p pivs0 ⊔ Submodule.span (ZMod P.p)
            { v | ∃ t', ((Function.update c.th t .won) t').isWon = true ∧ v = rvec P.p (rows t') } := by
        apply sup_le_sup_left
        apply Submodule.span_mono
        rintro v ⟨t', ht', rfl⟩
        exact ⟨t', (hw t').mpr (Or.inl ht'), rfl⟩
      apply Submodule.span_le.mpr
      rintro v ⟨j, q, hq, rfl⟩
      by_cases hj : j = a.1
      · subst hj
        simp only [Function.update_self, Option.some.injEq] at hq
        rw [← hq, g7]
        apply Submodule.smul_mem
        have e1 : vec P.p dr = (vec P.p dr - rvec P.p (rows t)) + rvec P.p (rows t) := by abel
        rw [e1]
        apply Submodule.add_mem
        · exact hmono (s1 g1)
        · exact Submodule.mem_sup_right (Submodule.subset_span ⟨t, (hw t).mpr (Or.inr rfl), rfl⟩)
      · simp only [Function.update_of_ne hj] at hq
        exact hmono (s1 (Submodule.subset_span ⟨j, q, hq, rfl⟩))
    · intro t' ht'
      by_cases ht : t' = t
      · subst ht
        simp only [Function.update_self]
        exact ⟨Option.some_ne_none _, ha0⟩
      · rw [Function.update_of_ne ht]
        have := ((hw t').mp ht').resolve_right ht
        obtain ⟨k1, k2⟩ := f1 t' this
        refine ⟨?_, k2⟩
        have hne : fc t' ≠ a.1 := fun he => by rw [he] at k1; exact k1 h2
        simp only [Function.update_of_ne hne]
        exact k1
    · have hfresh : ∀ t', (c.th t').isWon = true → fc t' ≠ a.1 := fun t' ht' he => by
        have := (f1 t' ht').1
        rw [he] at this
        exact this h2
      intro t1 t2 ht1 ht2 heq
      by_cases e1 : t1 = t
      · by_cases e2 : t2 = t
        · rw [e1, e2]
        · exfalso
          rw [e1, Function.update_self, Function.update_of_ne e2] at heq
          exact hfresh t2 (((hw t2).mp ht2).resolve_right e2) heq.symm
      · by_cases e2 : t2 = t
        · exfalso
          rw [e2, Function.update_self, Function.update_of_ne e1] at heq
          exact hfresh t1 (((hw t1).mp ht1).resolve_right e1) heq
        · rw [Function.update_of_ne e1, Function.update_of_ne e2] at heq
          exact f2 t1 t2 (((hw t1).mp ht1).resolve_right e1) (((hw t2).mp ht2).resolve_right e2) heq
    · intro j hj hj0
      by_cases hja : j = a.1
      · exact ⟨t, (hw t).mpr (Or.inr rfl), by rw [Function.update_self, hja]⟩
      · simp only [Function.update_of_ne hja] at hj
        obtain ⟨t', ht', hft⟩ := f3 j hj hj0
        refine ⟨t', (hw t').mpr (Or.inl ht'), ?_⟩
        rw [Function.update_of_ne]
        · exact hft
        · rintro rfl
          rw [hnw] at ht'
          exact absurd ht' (by simp)

theorem wonInv_exec {P : Par} {Ok : Nat → (Nat → Int) → Prop} (hP : ParOk P Ok) {pivs0 : Nat → Option Row}
    {n : Nat} {rows : Fin n → Row} {sc : Fin n → Nat} (h : EchelonPre P.p P.ncl P.ncols pivs0 rows sc) {m : Nat} {c : Conf n}
    (he : Exec P m (initConf pivs0 rows sc) c) :
    ConfOk P Ok pivs0 (total P.p pivs0 rows) (fun t => rvec P.p (rows t)) c ∧ WonInv P pivs0 rows c := by
  have hinit := init_ok (Ok := Ok) hP h.piv (fun c hc => (h.known c).mpr hc) h.start h.rows
  have hv : ∀ t, rvec P.p (rows t) ∈ total P.p pivs0 rows := fun t =>
    Submodule.mem_sup_right (Submodule.subset_span ⟨t, rfl⟩)
  generalize hi : initConf pivs0 rows sc = c0 at he hinit
  induction he with
  | refl =>
    refine ⟨hinit, ?_⟩
    subst hi
    refine ⟨?_, fun _ => 0, ?_, ?_, ?_⟩
    · exact le_sup_left
    · intro t ht; simp [initConf, Th.isWon] at ht
    · intro t _ ht; simp [initConf, Th.isWon] at ht
    · intro j hj hj0; exact absurd hj0 hj
  | step _ hs ih =>
    obtain ⟨a1, a2⟩ := ih hi hinit
    exact ⟨(step_ok hP hv a1 hs).1, wonInv_step a1 a2 hs⟩

/-- The interreduction keeps the pivot columns from `ncl` on. -/
theorem interreduce_same {P : Par} {Ok : Nat → (Nat → Int) → Prop} (hP : ParOk P Ok) {pivs0 : Nat → Option Row}
    (hcl : ∀ c, pivs0 c ≠ none ↔ c < P.ncl) {T : Submodule (ZMod P.p) (Nat → ZMod P.p)} {pivs R : Nat → Option Row}
    (h : PivOk P pivs0 pivs T) (hR : interreduce P pivs = some R) (j : Nat) :
    R j ≠ none ↔ pivs j ≠ none ∧ pivs0 j = none := by
  have h0 : pivs0 j = none ↔ ¬ j < P.ncl := by
    rw [← hcl j]; simp
  obtain ⟨R', e, a⟩ := interLoop_ok hP (pivs := fun c => if c < P.ncl then none else pivs c) (by
    intro i r hi
    split_ifs at hi with hlt
    have hp0 : pivs0 i = none := by
      by_contra hne
      exact hlt ((hcl i).mp hne)
    obtain ⟨f1, f2, f3⟩ := h.fresh i r hi hp0
    exact ⟨h.row i r hi, f2, fun t ht => (f3 t ht).1⟩) (P.ncols - P.ncl) le_rfl
  unfold interreduce at hR
  rw [e] at hR
  obtain rfl := Option.some.inj hR
  rw [ne_eq, a.same, h0]
  by_cases hlt : j < P.ncl <;> simp [hlt]

/-- As many new rows as rows which became pivots. -/
theorem won_card {P : Par} {Ok : Nat → (Nat → Int) → Prop} (hP : ParOk P Ok) {pivs0 : Nat → Option Row}
    {n : Nat} {rows : Fin n → Row} {sc : Fin n → Nat} (h : EchelonPre P.p P.ncl P.ncols pivs0 rows sc) {m : Nat} {c : Conf n}
    (he : Exec P m (initConf pivs0 rows sc) c) {R : Nat → Option Row} (hR : interreduce P c.pivs = some R) :
    (Finset.univ.filter fun t => (c.th t).isWon = true).card = ((Finset.range P.ncols).filter fun j => R j ≠ none).card := by
  obtain ⟨hc, _, f, f1, f2, f3⟩ := wonInv_exec hP h he
  have hs := interreduce_same hP h.known hc.1 hR
  refine Finset.card_bij (fun t _ => f t) ?_ ?_ ?_
  · intro t ht
    rw [Finset.mem_filter] at ht
    obtain ⟨k1, k2⟩ := f1 t ht.2
    rw [Finset.mem_filter, Finset.mem_range]
    refine ⟨?_, (hs _).mpr ⟨k1, k2⟩⟩
    obtain ⟨r, hr⟩ := Option.ne_none_iff_exists'.mp k1
    exact (hc.1.row _ _ hr).lt
  · intro t ht t' ht' heq
    rw [Finset.mem_filter] at ht ht'
    exact f2 t t' ht.2 ht'.2 heq
  · intro j hj
    rw [Finset.mem_filter] at hj
    obtain ⟨k1, k2⟩ := (hs j).mp hj.2
    obtain ⟨t, ht, hft⟩ := f3 j k1 k2
    exact ⟨t, Finset.mem_filter.mpr ⟨Finset.mem_univ _, ht⟩, hft⟩

/-! ### Known pivots which were used -/

/-- Span of the pivot rows with index in a list. -/
def listSpan (p : Nat) (pivs : Nat → Option Row) (l : List Nat) : Submodule (ZMod p) (Nat → ZMod p) :=
  Submodule.span (ZMod p) { v | ∃ j r, j ∈ l ∧ pivs j = some r ∧ v = rvec p r }

theorem listSpan_mono (p : Nat) (pivs : Nat → Option Row) {l l' : List Nat} (h : ∀ j ∈ l, j ∈ l') :
    listSpan p pivs l ≤ listSpan p pivs l' := by
  apply Submodule.span_mono
  rintro v ⟨j, r, h1, h2, h3⟩
  exact ⟨j, r, h j h1, h2, h3⟩

/-- The column loop only uses the rows whose bit is set. -/
theorem usedLoop_spec {p ncols : Nat} {elim : Int → Row → (Nat → Int) → Option (Nat → Int)}
    {Ok : Nat → (Nat → Int) → Prop} (hE : ElimSpec p ncols elim Ok) (hp : 0 < p)
    {pivs : Nat → Option Row} (hpiv : ∀ i r, pivs i = some r → PivRow p ncols i r) :
    ∀ (cnt i t : Nat) (s s' : St), Ok t s.dr → t + cnt ≤ ncols → i + cnt ≤ ncols →
      colLoop elim p pivs cnt i s = some s' → vec p s'.dr - vec p s.dr ∈ listSpan p pivs (usedLoop elim p pivs cnt i s)
  | 0, i, t, s, s', _, _, _, h => by
    obtain rfl := Option.some.inj h
    rw [sub_self]; exact Submodule.zero_mem _
  | cnt + 1, i, t, s, s', hok, ht, hi, h => by
    obtain ⟨s1, e1, a⟩ := colStep_spec hE hp (hpiv i) hok (by omega : t < ncols) (by omega : i < ncols)
    rw [colLoop, e1, Option.bind_some] at h
    have ih := usedLoop_spec hE hp hpiv cnt (i + 1) (t + 1) s1 s' a.ok (by omega) (by omega) h
    have hu : usedLoop elim p pivs (cnt + 1) i s =
        (if Int.tmod (s.dr i) p ≠ 0 ∧ pivs i ≠ none then [i] else []) ++ usedLoop elim p pivs cnt (i + 1) s1 := by
      rw [usedLoop, e1]
    rw [hu]
    have h2 : vec p s1.dr - vec p s.dr ∈ listSpan p pivs
        (if Int.tmod (s.dr i) p ≠ 0 ∧ pivs i ≠ none then [i] else []) := by
      by_cases hb : Int.tmod (s.dr i) p ≠ 0 ∧ pivs i ≠ none
      · rw [if_pos hb]
        refine Submodule.span_mono ?_ a.span
        rintro v ⟨j, r, h1, h2, h3, h4⟩
        exact ⟨j, r, by simp; omega, h3, h4⟩
      · rw [if_neg hb]
        by_cases hn : pivs i = none
        · have : vec p s1.dr - vec p s.dr ∈ pivSpan p pivs i (i + 1) := a.span
          have hbot : pivSpan p pivs i (i + 1) ≤ listSpan p pivs [] := by
            apply Submodule.span_mono
            rintro v ⟨j, r, h1, h2, h3, h4⟩
            obtain rfl : j = i := by omega
            rw [hn] at h3
            exact absurd h3 (by simp)
          exact hbot this
        · have h0 : Int.tmod (s.dr i) p = 0 := by
            by_contra hne
            exact hb ⟨hne, hn⟩
          have hx0 : (if s.dr i ≠ 0 then Int.tmod (s.dr i) p else s.dr i) = 0 := by
            split_ifs with hz
            · exact h0
            · exact not_not.mp hz
          have hst : s1 = { s with dr := Function.update s.dr i 0 } := by
            unfold colStep at e1
            simp only [hx0, if_true] at e1
            exact (Option.some.inj e1).symm
          have hv : vec p s1.dr = vec p s.dr := by
            rw [hst, vec_update]
            have hd : (p : Int) ∣ s.dr i := Int.dvd_of_tmod_eq_zero h0
            have : ((0 - s.dr i : Int) : ZMod p) = 0 := by
              rw [ZMod.intCast_zmod_eq_zero_iff_dvd]
              exact (dvd_sub_right (dvd_refl _ |>.trans (dvd_zero _))).mpr hd
            rw [this, Pi.single_zero, add_zero]
          rw [hv, sub_self]
          exact Submodule.zero_mem _
    have := Submodule.add_mem _ (listSpan_mono p pivs (fun j hj => List.mem_append_right _ hj) ih)
      (listSpan_mono p pivs (fun j hj => List.mem_append_left _ hj) h2)
    rwa [sub_add_sub_cancel] at this

/-- Reducing a row by the known pivots: there is a row without entries left of `ncl` which differs from the given
one by a combination of those known pivots whose bit is set. -/
theorem rba_spec {P : Par} {Ok : Nat → (Nat → Int) → Prop} (hP : ParOk P Ok) {pivs : Nat → Option Row}
    (hpiv : ∀ i r, pivs i = some r → PivRow P.p P.ncols i r) (hcl : ∀ c, c < P.ncl → pivs c ≠ none) {sc : Nat} {r : Row}
    (hr : InRow P.p P.ncols sc r) : ∃ v : Nat → ZMod P.p, v - rvec P.p r ∈ listSpan P.p pivs (rba P pivs sc r) ∧
      (∀ c, c < P.ncl → v c = 0) ∧ ∀ c, P.ncols ≤ c → v c = 0 := by
  have hran := fill_range P.p hP.prime.pos r (fun u hu => (hr.bound u hu).2.2)
  have hlow : ∀ c, c < sc → fill r c = 0 := fun c hc => fill_zero _ _ (fun u hu => by
    have := (hr.bound u hu).1; omega)
  have hhigh : ∀ c, P.ncols ≤ c → fill r c = 0 := fun c hc => fill_zero _ _ (fun u hu => by
    have := (hr.bound u hu).2.1; omega)
  have hncl := hP.hncl
  by_cases hsc : sc ≤ P.ncl
  · obtain ⟨s', e, a⟩ := colLoop_spec hP.elim hP.prime.pos hpiv (P.ncl - sc) sc 0 { dr := fill r, np := none, k := 0 }
      (hP.elim.init _ hran) (by omega) (by omega)
    have hu := usedLoop_spec hP.elim hP.prime.pos hpiv (P.ncl - sc) sc 0 _ s' (hP.elim.init _ hran) (by omega) (by omega) e
    refine ⟨vec P.p s'.dr, ?_, ?_, ?_⟩
    · rw [← fill_vec P.p r hr.nodup]
      exact hu
    · intro c hc
      have : s'.dr c = 0 := by
        by_cases h1 : c < sc
        · rw [a.below c h1]; exact hlow c h1
        · exact (a.inside c (by omega) (by omega)).2.2 (hcl c hc)
      unfold vec; rw [this]; simp
    · intro c hc
      have : s'.dr c = 0 := by rw [a.above c hc]; exact hhigh c hc
      unfold vec; rw [this]; simp
  · refine ⟨rvec P.p r, by rw [sub_self]; exact Submodule.zero_mem _, ?_, ?_⟩
    · intro c hc
      rw [← fill_vec P.p r hr.nodup]
      unfold vec; rw [hlow c (by omega)]; simp
    · intro c hc
      rw [← fill_vec P.p r hr.nodup]
      unfold vec; rw [hhigh c hc]; simp

/-- The bit of the starting column is set if the row has an entry one there. -/
theorem rba_start {P : Par} {Ok : Nat → (Nat → Int) → Prop} (hP : ParOk P Ok) {pivs : Nat → Option Row} {sc : Nat} {r : Row}
    (hlt : sc < P.ncl) (hs : pivs sc ≠ none) (h1 : fill r sc = 1) : sc ∈ rba P pivs sc r := by
  unfold rba
  rw [show P.ncl - sc = (P.ncl - sc - 1) + 1 by omega, usedLoop]
  apply List.mem_append_left
  rw [if_pos]
  · exact List.mem_cons_self
  · refine ⟨?_, hs⟩
    simp only [h1]
    have := hP.prime.one_lt
    rw [Int.tmod_eq_of_lt (by norm_num) (by exact_mod_cast this)]
    norm_num

theorem usedLoop_lt {elim : Int → Row → (Nat → Int) → Option (Nat → Int)} {p : Nat} {pivs : Nat → Option Row} :
    ∀ (cnt i : Nat) (s : St), ∀ j ∈ usedLoop elim p pivs cnt i s, j < i + cnt
  | 0, _, _, j, h => by simp [usedLoop] at h
  | cnt + 1, i, s, j, h => by
    rw [usedLoop, List.mem_append] at h
    rcases h with h | h
    · split_ifs at h
      · simp at h; omega
      · simp at h
    · split at h
      · simp at h
      · have := usedLoop_lt cnt (i + 1) _ j h; omega

end Verif.Echelon
