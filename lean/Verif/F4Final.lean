import Verif.F4
import Verif.Redundant

/-! The last phase of `core_f4`, src/neogb/f4.c 478-518 and 566-625: removal of redundant elements and
reduction of the final basis. -/

namespace Verif.F4

open Verif.Pairs Verif.Spec Verif.RowReduce Verif.Normalize Verif.Echelon Verif.Props Verif.Orders Verif.Groebner
open Verif.Redundant MvPolynomial

variable {n : Nat}

/-! ### Model -/

/-- `process_redundant_elements`, f4.c 478-518: the indices that stay in `bs->lmps`.  The divisor masks in
`bs->lm` are left out, see C22. -/
def finalLmps (s : St n) : Option (List Nat) :=
  (removeRedundant (fun b x => decide (lead (s.els.getD x []) ≤ lead (s.els.getD b []))) s.pst.lmps.length
      (fun i => ((), s.pst.lmps.getD i 0)) s.pst.red).map
    fun r => (List.range r.2.2).map fun i => (r.2.1 i).2

/-- One turn of the loop f4.c 584-588: the element becomes a row to be reduced, its leading monomial gets
`idx = 1`. -/
def finTr (els : List (Poly n)) (s : Sym n) (k : Nat) : Sym n :=
  { s with
    ms := addAll s.ms (rowPoly els ⟨0, k⟩)
    mark := lead (rowPoly els ⟨0, k⟩) :: s.mark
    tr := s.tr ++ [⟨0, k⟩] }

/-- The loop f4.c 584-588. -/
def finSym (els : List (Poly n)) (L : List Nat) : Sym n := L.foldl (finTr els) ⟨[], [], [], []⟩

/-- The array of pivots in the final reduction, la_ff_32.c 2610-2613. -/
def finPivs (els : List (Poly n)) (hcm : List (Mon n)) (rrs : List (MRow n)) : Nat → Option Row :=
  rrs.foldl (fun pv r => Function.update pv (leadCol els hcm r) (some (convRow hcm (rowPoly els r)))) fun _ => none

/-- One row in the final reduction (one thread), la_ff_32.c 2630-2683: the row and the new array of pivots.
`none`: undefined behaviour; or the row is reduced to zero, then the conversion to basis elements would
follow a null pointer; or the compare-and-swap fails, then another pass follows, which is not modelled.
`final_exists` shows that it does not happen. -/
def finStep (P : Par) (pv : Nat → Option Row) (sc : Nat) (r : Row) : Option (Row × (Nat → Option Row)) :=
  (reduceRow P.elim P.p pv P.ncl P.ncols sc (fill r)).bind fun x =>
    x.2.bind fun q => (normRow P.w P.out P.p q).bind fun q' =>
      (q'.head?).bind fun t => if pv t.1 = none then some (q', Function.update pv t.1 (some q')) else none

/-- The loop over the rows, each with its starting column. -/
def finLoop (P : Par) : (Nat → Option Row) → List (Nat × Row) → Option (List Row)
  | _, [] => some []
  | pv, x :: l => (finStep P pv x.1 x.2).bind fun y => (finLoop P y.2 l).map fun R => y.1 :: R

/-- `reduce_final_basis`: the elements with index in `L` are reduced, `G` is the final basis, in the order of
the array.  If no element is left, the loop symbol.c 588-591 doubles zero forever.  `idx` is set to one for
all monomials, so `ncl` is zero and the columns are sorted by the monomials alone (f4.c 594-597); rows to be
reduced are sorted by decreasing column of the leading monomial (`matrix_row_cmp_increasing`, order.c). -/
def FinalL (C : Cfg n) (els : List (Poly n)) (L : List Nat) (G : List (Poly n)) : Prop :=
  ∃ fuel sy hcm rrs trs P R, L ≠ [] ∧
    symLoop els L (finSym els L).ms.length fuel 0 (finSym els L) = some sy ∧
    IsCols C.ord { sy with mark := [] } hcm ∧ List.Perm rrs sy.rr ∧ List.Perm trs sy.tr ∧
    trs.Pairwise (fun a b => leadCol els hcm b ≤ leadCol els hcm a) ∧
    (P = par31 C.p 0 hcm.length ∨ (C.p < 2 ^ 18 ∧ hcm.length < 2 ^ 27 ∧ P = par17 C.p 0 hcm.length)) ∧
    finLoop P (finPivs els hcm rrs) (trs.map fun r => (leadCol els hcm r, convRow hcm (rowPoly els r))) = some R ∧
    G = R.map (backRow hcm)

/-- The last phase. -/
def Final (C : Cfg n) (s : St n) (G : List (Poly n)) : Prop :=
  ∃ L, finalLmps s = some L ∧ FinalL C s.els L G

/-! ### Linear algebra of the final reduction -/

/-- Reducing a row with leading coefficient one in a column without pivot. -/
theorem reduce_pivrow {P : Par} {Ok : Nat → (Nat → Int) → Prop} (hP : ParOk P Ok) (hncl : P.ncl = 0)
    {pv : Nat → Option Row} (hpv : ∀ i r, pv i = some r → PivRow P.p P.ncols i r) {k : Nat} (hk : pv k = none)
    {r : Row} (hr : PivRow P.p P.ncols k r) :
    ∃ dr' q, reduceRow P.elim P.p pv P.ncl P.ncols k (fill r) = some (dr', some q) ∧ PivRow P.p P.ncols k q ∧
      (q.map Prod.fst).Pairwise (· < ·) ∧ (∀ t ∈ q, 0 < t.2 ∧ pv t.1 = none) ∧
      rvec P.p q - rvec P.p r ∈ allSpan P.p pv := by
  have hkn : k < P.ncols := by
    obtain ⟨r', hr'⟩ := hr.head
    exact (hr.bound (k, 1) (by rw [hr']; exact List.mem_cons_self)).1
  obtain ⟨dr', res, e, a⟩ := reduceRow_spec hP.elim hP.prime.pos hP.h32 hpv (ncl := P.ncl) (dpiv := k)
    (dr := fill r)
    (hP.elim.init _ (fill_range P.p hP.prime.pos r (fun t ht => (hr.bound t ht).2)))
    (by omega) hP.hncl
    (fun c hc => fill_zero _ _ (fun t ht => by have := hr.col_ge t ht; omega))
    (fun c hc => fill_zero _ _ (fun t ht => by have := (hr.bound t ht).1; omega))
    (fun c hc => by omega)
  have hspan := a.span
  rw [fill_vec _ _ hr.nodup] at hspan
  have hlead : dr' k = 1 := by
    have h1 : (vec P.p dr' - rvec P.p r) k = 0 := by
      refine span_vanish ?_ hspan
      rintro v ⟨j, q, hj1, _, hq, rfl⟩
      have hjk : j ≠ k := by
        rintro rfl; rw [hk] at hq; exact absurd hq (by simp)
      exact (hpv j q hq).below (by omega)
    rw [Pi.sub_apply, hr.at_head, sub_eq_zero] at h1
    unfold vec at h1
    have h2 : ((dr' k : Int) : ZMod P.p) = ((1 : Int) : ZMod P.p) := by rw [h1]; simp
    rw [ZMod.intCast_eq_intCast_iff] at h2
    have h3 := a.range k
    rw [Int.ModEq, Int.emod_eq_of_lt h3.1 h3.2,
      Int.emod_eq_of_lt (by norm_num) (by exact_mod_cast hP.prime.one_lt)] at h2
    exact h2
  rcases res with _ | q
  · exfalso
    have hf : Fact P.p.Prime := ⟨hP.prime⟩
    have := congrFun (a.null rfl) k
    unfold vec at this
    rw [hlead] at this
    simp at this
  · have hf : Fact P.p.Prime := ⟨hP.prime⟩
    obtain ⟨q1, q2, q3, q4⟩ := a.row q rfl
    have hqk : ∃ q', q = (k, 1) :: q' := by
      rcases q with _ | ⟨t, q'⟩
      · exact absurd rfl q2
      · have ht1 : t.1 = k := by
          have hge := (q4 t List.mem_cons_self).2.1
          by_contra hne
          have : rvec P.p (t :: q') k = 0 := rvec_zero _ _ _ (fun u hu => by
            rw [List.map_cons, List.pairwise_cons] at q3
            rcases List.mem_cons.mp hu with rfl | hu
            · exact hne
            · have := q3.1 u.1 (List.mem_map_of_mem hu); omega)
          rw [q1] at this
          unfold vec at this
          rw [hlead] at this
          simp at this
        have ht2 : t.2 = 1 := by
          have hz : rvec P.p q' k = 0 := rvec_zero _ _ _ (fun u hu => by
            rw [List.map_cons, List.pairwise_cons] at q3
            have := q3.1 u.1 (List.mem_map_of_mem hu); omega)
          have h5 := congrFun q1 k
          rw [rvec_cons, Pi.add_apply, hz, add_zero, ht1, Pi.single_eq_same] at h5
          unfold vec at h5
          rw [hlead] at h5
          have h6 : ((t.2 : Nat) : ZMod P.p) = ((1 : Nat) : ZMod P.p) := by rw [h5]; simp
          rw [ZMod.natCast_eq_natCast_iff] at h6
          have h7 := (q4 t List.mem_cons_self).2.2.2.2.1
          rw [Nat.ModEq, Nat.mod_eq_of_lt h7, Nat.mod_eq_of_lt hP.prime.one_lt] at h6
          exact h6
        exact ⟨q', by rw [← ht1, ← ht2]⟩
    refine ⟨dr', q, e, PivRow.of_sorted hqk q3 (fun t ht => ⟨(q4 t ht).2.2.1, (q4 t ht).2.2.2.2.1⟩), q3,
      fun t ht => ⟨(q4 t ht).2.2.2.1, (q4 t ht).2.2.2.2.2⟩, ?_⟩
    rw [q1]
    exact pivSpan_le_all _ _ _ _ hspan

theorem finStep_spec {P : Par} {Ok : Nat → (Nat → Int) → Prop} (hP : ParOk P Ok) (hncl : P.ncl = 0)
    {pv : Nat → Option Row} (hpv : ∀ i r, pv i = some r → PivRow P.p P.ncols i r) {k : Nat} (hk : pv k = none)
    {r : Row} (hr : PivRow P.p P.ncols k r) :
    ∃ q, finStep P pv k r = some (q, Function.update pv k (some q)) ∧ PivRow P.p P.ncols k q ∧
      (q.map Prod.fst).Pairwise (· < ·) ∧ (∀ t ∈ q, 0 < t.2 ∧ pv t.1 = none) ∧
      rvec P.p q - rvec P.p r ∈ allSpan P.p pv := by
  obtain ⟨dr', q, e, h1, h2, h3, h4⟩ := reduce_pivrow hP hncl hpv hk hr
  refine ⟨q, ?_, h1, h2, h3, h4⟩
  obtain ⟨q', hq'⟩ := h1.head
  unfold finStep
  rw [e]
  simp only [Option.bind_some]
  have : normRow P.w P.out P.p q = some q := by
    rw [hq']
    simp [normRow]
  rw [this, Option.bind_some]
  have hh : q.head? = some (k, 1) := by rw [hq']; rfl
  rw [hh, Option.bind_some]
  simp only
  rw [if_pos hk]

/-- What is known about a row of the final basis. -/
structure FinOk (P : Par) (pv : Nat → Option Row) (rows : List (Nat × Row)) (x : Nat × Row) (q : Row) : Prop where
  row : PivRow P.p P.ncols x.1 q
  sorted : (q.map Prod.fst).Pairwise (· < ·)
  pos : ∀ t ∈ q, 0 < t.2
  red : ∀ t ∈ q, t.1 = x.1 ∨ (pv t.1 = none ∧ ∀ y ∈ rows, t.1 ≠ y.1)
  span : rvec P.p q ∈ allSpan P.p pv ⊔ Submodule.span (ZMod P.p) { v | ∃ y ∈ rows, v = rvec P.p y.2 }

theorem finLoop_spec {P : Par} {Ok : Nat → (Nat → Int) → Prop} (hP : ParOk P Ok) (hncl : P.ncl = 0) :
    ∀ (rows : List (Nat × Row)) (pv : Nat → Option Row), (∀ i r, pv i = some r → PivRow P.p P.ncols i r) →
    (∀ x ∈ rows, PivRow P.p P.ncols x.1 x.2 ∧ pv x.1 = none) → rows.Pairwise (fun a b => b.1 < a.1) →
    ∃ R, finLoop P pv rows = some R ∧ List.Forall₂ (FinOk P pv rows) rows R := by
  intro rows
  induction rows with
  | nil => intro pv _ _ _; exact ⟨[], rfl, .nil⟩
  | cons x rows ih =>
    intro pv hpv hx hs
    rw [List.pairwise_cons] at hs
    obtain ⟨hx1, hx2⟩ := hx x List.mem_cons_self
    obtain ⟨q, e, q1, q2, q3, q4⟩ := finStep_spec hP hncl hpv hx2 hx1
    have hpv' : ∀ i r, Function.update pv x.1 (some q) i = some r → PivRow P.p P.ncols i r := by
      intro i r hir
      by_cases hi : i = x.1
      · subst hi
        rw [Function.update_self] at hir
        rw [← Option.some.inj hir]
        exact q1
      · rw [Function.update_of_ne hi] at hir
        exact hpv i r hir
    obtain ⟨R, hR, hall⟩ := ih (Function.update pv x.1 (some q)) hpv' (by
      intro y hy
      refine ⟨(hx y (List.mem_cons_of_mem _ hy)).1, ?_⟩
      rw [Function.update_of_ne (by have := hs.1 y hy; omega)]
      exact (hx y (List.mem_cons_of_mem _ hy)).2) hs.2
    have hq : rvec P.p q ∈ allSpan P.p pv ⊔ Submodule.span (ZMod P.p) { v | ∃ y ∈ x :: rows, v = rvec P.p y.2 } := by
      have := Submodule.add_mem_sup (T := Submodule.span (ZMod P.p) { v | ∃ y ∈ x :: rows, v = rvec P.p y.2 }) q4
        (Submodule.subset_span ⟨x, List.mem_cons_self, rfl⟩)
      rwa [sub_add_cancel] at this
    refine ⟨q :: R, by rw [finLoop, e, Option.bind_some]; simp only; rw [hR]; rfl, .cons ?_ ?_⟩
    · refine ⟨q1, q2, fun t ht => (q3 t ht).1, ?_, hq⟩
      intro t ht
      by_cases htx : t.1 = x.1
      · exact Or.inl htx
      · right
        refine ⟨(q3 t ht).2, ?_⟩
        intro y hy
        rcases List.mem_cons.mp hy with rfl | hy
        · exact htx
        · have := hs.1 y hy
          have := q1.col_ge t ht
          omega
    · refine hall.imp ?_
      intro y r h
      refine ⟨h.row, h.sorted, h.pos, ?_, ?_⟩
      · intro t ht
        rcases h.red t ht with h1 | ⟨h1, h2⟩
        · exact Or.inl h1
        · have htx : t.1 ≠ x.1 := by
            intro he
            rw [he, Function.update_self] at h1
            exact absurd h1 (by simp)
          rw [Function.update_of_ne htx] at h1
          refine Or.inr ⟨h1, ?_⟩
          intro y' hy'
          rcases List.mem_cons.mp hy' with rfl | hy'
          · exact htx
          · exact h2 y' hy'
      · suffices hle : allSpan P.p (Function.update pv x.1 (some q)) ⊔
            Submodule.span (ZMod P.p) { v | ∃ y ∈ rows, v = rvec P.p y.2 } ≤ allSpan P.p pv ⊔
            Submodule.span (ZMod P.p) { v | ∃ y ∈ x :: rows, v = rvec P.p y.2 } from hle h.span
        refine sup_le ?_ ?_
        · apply Submodule.span_le.mpr
          rintro v ⟨j, w, hj, rfl⟩
          by_cases hjx : j = x.1
          · subst hjx
            rw [Function.update_self] at hj
            rw [← Option.some.inj hj]
            exact hq
          · rw [Function.update_of_ne hjx] at hj
            exact Submodule.mem_sup_left (Submodule.subset_span ⟨j, w, hj, rfl⟩)
        · refine le_trans (Submodule.span_mono ?_) le_sup_right
          rintro v ⟨y', hy', rfl⟩
          exact ⟨y', List.mem_cons_of_mem _ hy', rfl⟩

/-! ### Symbolic preprocessing in the final reduction -/

/-- The rows to be reduced counted as reducers. -/
def virt (s : Sym n) : Sym n := { s with rr := s.tr ++ s.rr, tr := [] }

theorem symStep_virt (els : List (Poly n)) (lmps : List Nat) (m : Mon n) (s : Sym n) :
    symStep els lmps m (virt s) = virt (symStep els lmps m s) ∧ (symStep els lmps m s).tr = s.tr := by
  unfold symStep
  generalize findReducer els lmps m = r
  cases r with
  | none => exact ⟨rfl, rfl⟩
  | some k => exact ⟨by simp [virt, List.append_assoc], rfl⟩

theorem symLoop_virt (els : List (Poly n)) (lmps : List Nat) (old : Nat) : ∀ (fuel i : Nat) (s : Sym n),
    symLoop els lmps old fuel i (virt s) = (symLoop els lmps old fuel i s).map virt ∧
    ∀ s', symLoop els lmps old fuel i s = some s' → s'.tr = s.tr := by
  intro fuel
  induction fuel with
  | zero =>
    intro i s
    rw [symLoop.eq_def, symLoop.eq_def]
    simp only
    have : (virt s).ms = s.ms := rfl
    rw [this]
    generalize s.ms[i]? = r
    cases r with
    | none => exact ⟨rfl, fun s' h => by rw [← Option.some.inj h]⟩
    | some m => exact ⟨rfl, fun s' h => by simp at h⟩
  | succ fuel ih =>
    intro i s
    rw [symLoop.eq_def, symLoop.eq_def]
    simp only
    have : (virt s).ms = s.ms := rfl
    rw [this]
    generalize s.ms[i]? = r
    cases r with
    | none => exact ⟨rfl, fun s' h => by rw [← Option.some.inj h]⟩
    | some m =>
      simp only
      have : (virt s).mark = s.mark := rfl
      rw [this]
      split_ifs with hc
      · exact ih (i + 1) s
      · obtain ⟨h1, h2⟩ := symStep_virt els lmps m s
        rw [h1]
        obtain ⟨h3, h4⟩ := ih (i + 1) (symStep els lmps m s)
        exact ⟨h3, fun s' h => (h4 s' h).trans h2⟩

theorem rowPoly_one (els : List (Poly n)) (k : Nat) : rowPoly els ⟨0, k⟩ = els.getD k [] := by
  unfold rowPoly mulPoly
  simp

theorem finSym_inv {els : List (Poly n)} : ∀ (L : List Nat) (s : Sym n), SymInv els (virt s) → s.rr = [] →
    (∀ k ∈ L, k < els.length ∧ lead (els.getD k []) ∉ s.mark) →
    L.Pairwise (fun a b => lead (els.getD a []) ≠ lead (els.getD b [])) →
    SymInv els (virt (L.foldl (finTr els) s)) ∧ (L.foldl (finTr els) s).rr = [] ∧
      (L.foldl (finTr els) s).tr = s.tr ++ L.map fun k => ⟨0, k⟩ := by
  intro L
  induction L with
  | nil => intro s h hr _ _; exact ⟨h, hr, by simp⟩
  | cons k L ih =>
    intro s h hr hk hp
    rw [List.pairwise_cons] at hp
    obtain ⟨hk1, hk2⟩ := hk k List.mem_cons_self
    have h1 := h.addRr (r := ⟨0, k⟩) hk1 (rfl) (by rw [rowPoly_one]; exact hk2)
    have e : virt (finTr els s k) = { virt s with
        ms := addAll (virt s).ms (rowPoly els ⟨0, k⟩)
        mark := lead (rowPoly els ⟨0, k⟩) :: (virt s).mark
        rr := (virt s).rr ++ [⟨0, k⟩] } := by
      simp [virt, finTr, hr]
    rw [← e] at h1
    obtain ⟨a1, a2, a3⟩ := ih (finTr els s k) h1 hr (by
      intro j hj
      obtain ⟨hj1, hj2⟩ := hk j (List.mem_cons_of_mem _ hj)
      refine ⟨hj1, ?_⟩
      simp only [finTr, List.mem_cons, not_or]
      refine ⟨?_, hj2⟩
      rw [rowPoly_one]
      exact fun he => hp.1 j hj he.symm) hp.2
    refine ⟨a1, a2, ?_⟩
    rw [List.foldl_cons, a3]
    simp [finTr]

/-! ### The elements that are left -/

theorem finalLmps_spec {C : Cfg n} [Fact C.p.Prime] {I : Ideal (MvPolynomial (Fin n) (ZMod C.p))} {s : St n}
    (h : Inv C I s) : ∃ L, finalLmps s = some L ∧ (∀ k ∈ L, k < s.els.length) ∧
      L.Pairwise (fun a b => ¬ lead (s.els.getD a []) ≤ lead (s.els.getD b []) ∧
        ¬ lead (s.els.getD b []) ≤ lead (s.els.getD a [])) ∧
      ∀ i < s.els.length, ∃ k ∈ L, lead (s.els.getD k []) ≤ lead (s.els.getD i []) := by
  have hlist : (List.range s.pst.lmps.length).map (fun i => s.pst.lmps.getD i 0) = s.pst.lmps := by
    apply List.ext_getElem
    · simp
    · intro i h1 h2
      rw [List.getElem_map, List.getElem_range, List.getD_eq_getElem _ _ h2]
  obtain ⟨red', a', lml', e, h1, h2, h3, h4, h5⟩ := removeRedundant_spec
    (fun b x => decide (lead (s.els.getD x []) ≤ lead (s.els.getD b []))) s.pst.lmps.length
    (fun i => ((), s.pst.lmps.getD i 0)) s.pst.red (by simp only; rw [hlist]; exact h.nodup)
    (by simp only [decide_eq_true_eq]; intro x y z hxy hyz; exact hyz.trans hxy)
    (by simp)
  refine ⟨(List.range lml').map fun i => (a' i).2, by unfold finalLmps; rw [e]; rfl, ?_, ?_, ?_⟩
  · intro k hk
    obtain ⟨i, hi, rfl⟩ := List.mem_map.mp hk
    have : a' i ∈ (List.range s.pst.lmps.length).map fun i => ((), s.pst.lmps.getD i 0) :=
      h1.subset (List.mem_map.mpr ⟨i, hi, rfl⟩)
    obtain ⟨j, hj, he⟩ := List.mem_map.mp this
    rw [← he]
    have hj' := List.mem_range.mp hj
    simp only
    have := h.pinv.lmps (s.pst.lmps.getD j 0) (by rw [List.getD_eq_getElem _ _ hj']; exact List.getElem_mem hj')
    rw [h.lo] at this
    exact this
  · rw [List.pairwise_map]
    refine List.Pairwise.imp_of_mem ?_ (List.pairwise_lt_range (n := lml'))
    intro a b ha hb hab
    have ha' := List.mem_range.mp ha
    have hb' := List.mem_range.mp hb
    have g1 := h3 a ha' b hb' (by omega)
    have g2 := h3 b hb' a ha' (by omega)
    simp only [decide_eq_false_iff_not] at g1 g2
    exact ⟨g2, g1⟩
  · have key : ∀ i < s.els.length, s.pst.red i = false → ∃ k ∈ (List.range lml').map fun i => (a' i).2,
        lead (s.els.getD k []) ≤ lead (s.els.getD i []) := by
      intro i hi hr
      have hm := h.pinv.nonred i (by rw [h.lo]; exact hi) hr
      obtain ⟨j, hj, rfl⟩ := List.mem_iff_getElem.mp hm
      obtain ⟨l, hl, hd⟩ := h2 j hj (by simp only; rw [List.getD_eq_getElem _ _ hj]; exact hr)
      simp only [decide_eq_true_eq] at hd
      rw [List.getD_eq_getElem s.pst.lmps _ hj] at hd
      exact ⟨_, List.mem_map.mpr ⟨l, List.mem_range.mpr hl, rfl⟩, hd⟩
    intro i hi
    by_cases hr : s.pst.red i = true
    · obtain ⟨k, hk, h6, h7⟩ := h.pinv.red i (by rw [h.ld]; exact hi) hr
      obtain ⟨l, hl, hd⟩ := key k (by rw [← h.ld]; exact hk) h6
      exact ⟨l, hl, hd.trans h7⟩
    · exact key i hi (by simpa using hr)

/-! ### Rows of the final reduction -/

theorem pivRow_conv {O : OKind} {p : Nat} {hcm : List (Mon n)} (hs : hcm.Pairwise (colLt O [])) {f : Poly n}
    (hf : PolyOk O p f) (hm : ∀ t ∈ f, t.1 ∈ hcm) : PivRow p hcm.length (hcm.idxOf (lead f)) (convRow hcm f) := by
  refine PivRow.of_sorted ?_ ?_ ?_
  · obtain ⟨g, hg⟩ := hf.head
    refine ⟨convRow hcm g, ?_⟩
    conv_lhs => rw [hg]
    rfl
  · have : (convRow hcm f).map Prod.fst = (f.map Prod.fst).map fun m => hcm.idxOf m := by
      simp [convRow, Function.comp_def]
    rw [this, List.pairwise_map]
    refine List.Pairwise.imp_of_mem ?_ hf.sorted
    intro a b ha hb hab
    obtain ⟨x, hx, rfl⟩ := List.mem_map.mp ha
    obtain ⟨y, hy, rfl⟩ := List.mem_map.mp hb
    exact idxOf_lt hs (hm x hx) (hm y hy) (Or.inr ⟨by simp, hab⟩)
  · intro t ht
    obtain ⟨x, hx, rfl⟩ := List.mem_map.mp ht
    exact ⟨List.idxOf_lt_length_iff.mpr (hm x hx), (hf.coeff x hx).2⟩

theorem finPivs_some {els : List (Poly n)} {hcm : List (Mon n)} {rrs : List (MRow n)} {i : Nat} {r : Row}
    (h : finPivs els hcm rrs i = some r) :
    ∃ x ∈ rrs, leadCol els hcm x = i ∧ r = convRow hcm (rowPoly els x) := by
  have key : ∀ (rrs : List (MRow n)) (pv : Nat → Option Row),
      rrs.foldl (fun pv r => Function.update pv (leadCol els hcm r) (some (convRow hcm (rowPoly els r)))) pv i = some r →
      (∃ x ∈ rrs, leadCol els hcm x = i ∧ r = convRow hcm (rowPoly els x)) ∨ pv i = some r := by
    intro rrs
    induction rrs with
    | nil => intro pv h; exact Or.inr h
    | cons x rrs ih =>
      intro pv h
      rcases ih _ h with ⟨y, hy, h1⟩ | h1
      · exact Or.inl ⟨y, List.mem_cons_of_mem _ hy, h1⟩
      · beta_reduce at h1
        by_cases hi : i = leadCol els hcm x
        · rw [hi, Function.update_self] at h1
          exact Or.inl ⟨x, List.mem_cons_self, hi.symm, (Option.some.inj h1).symm⟩
        · rw [Function.update_of_ne hi] at h1
          exact Or.inr h1
  rcases key rrs _ h with h1 | h1
  · exact h1
  · simp at h1

theorem finPivs_none {els : List (Poly n)} {hcm : List (Mon n)} {rrs : List (MRow n)} {i : Nat}
    (h : finPivs els hcm rrs i = none) : ∀ x ∈ rrs, leadCol els hcm x ≠ i := by
  have key : ∀ (rrs : List (MRow n)) (pv : Nat → Option Row),
      rrs.foldl (fun pv r => Function.update pv (leadCol els hcm r) (some (convRow hcm (rowPoly els r)))) pv i = none →
      (∀ x ∈ rrs, leadCol els hcm x ≠ i) ∧ pv i = none := by
    intro rrs
    induction rrs with
    | nil => intro pv h; exact ⟨by simp, h⟩
    | cons x rrs ih =>
      intro pv h
      obtain ⟨h1, h2⟩ := ih _ h
      beta_reduce at h2
      by_cases hi : i = leadCol els hcm x
      · rw [hi, Function.update_self] at h2
        simp at h2
      · rw [Function.update_of_ne hi] at h2
        refine ⟨?_, h2⟩
        intro y hy
        rcases List.mem_cons.mp hy with rfl | hy
        · exact fun he => hi he.symm
        · exact h1 y hy
  exact (key rrs _ h).1

/-- Everything known about the matrix of the final reduction. -/
structure FinMat (C : Cfg n) (s : St n) (L : List Nat) (sy : Sym n) (hcm : List (Mon n)) (rrs trs : List (MRow n)) :
    Prop where
  ok : ∀ f ∈ s.els, PolyOk C.ord C.p f
  lt : ∀ k ∈ L, k < s.els.length
  min : L.Pairwise (fun a b => ¬ lead (s.els.getD a []) ≤ lead (s.els.getD b []) ∧
    ¬ lead (s.els.getD b []) ≤ lead (s.els.getD a []))
  inv : SymInv s.els (virt sy)
  tr : sy.tr = L.map fun k => ⟨0, k⟩
  irred : ∀ m ∈ sy.ms, m ∈ sy.mark ∨ ∀ k ∈ L, ¬ lead (s.els.getD k []) ≤ m
  cols : IsCols C.ord { sy with mark := [] } hcm
  rrp : List.Perm rrs sy.rr
  trp : List.Perm trs sy.tr
  sorted : trs.Pairwise (fun a b => leadCol s.els hcm b ≤ leadCol s.els hcm a)

theorem final_symLoop {C : Cfg n} {s : St n} {L : List Nat} (hok : ∀ f ∈ s.els, PolyOk C.ord C.p f)
    (hlt : ∀ k ∈ L, k < s.els.length)
    (hmin : L.Pairwise (fun a b => ¬ lead (s.els.getD a []) ≤ lead (s.els.getD b []) ∧
      ¬ lead (s.els.getD b []) ≤ lead (s.els.getD a []))) :
    (∃ fuel sy, symLoop s.els L (finSym s.els L).ms.length fuel 0 (finSym s.els L) = some sy) ∧
    ∀ fuel sy, symLoop s.els L (finSym s.els L).ms.length fuel 0 (finSym s.els L) = some sy →
      SymInv s.els (virt sy) ∧ sy.tr = (L.map fun k => ⟨0, k⟩) ∧
      ∀ m ∈ sy.ms, m ∈ sy.mark ∨ ∀ k ∈ L, ¬ lead (s.els.getD k []) ≤ m := by
  have hemp : SymInv s.els (virt (⟨[], [], [], []⟩ : Sym n)) := by
    refine ⟨?_, ?_, ?_, ?_, ?_⟩ <;> simp [virt]
  obtain ⟨h1, h2, h3⟩ := finSym_inv L ⟨[], [], [], []⟩ hemp rfl (fun k hk => ⟨hlt k hk, by simp⟩)
    (hmin.imp fun h he => h.1 (le_of_eq he))
  have hl : LoopInv s.els L (finSym s.els L).ms.length 0 (virt (finSym s.els L)) := loopInv_start hok h1
  refine ⟨?_, ?_⟩
  · obtain ⟨fuel, s', hs'⟩ := symLoop_terminates hok hlt hl
    rw [(symLoop_virt _ _ _ _ _ _).1] at hs'
    obtain ⟨sy, hsy, _⟩ := Option.map_eq_some_iff.mp hs'
    exact ⟨fuel, sy, hsy⟩
  · intro fuel sy hsy
    obtain ⟨e1, e2⟩ := symLoop_virt s.els L (finSym s.els L).ms.length fuel 0 (finSym s.els L)
    have htr := e2 sy hsy
    rw [hsy] at e1
    obtain ⟨a1, _, _, a4⟩ := symLoop_inv hok hlt _ _ _ _ hl e1
    refine ⟨a1, ?_, a4⟩
    rw [htr]
    unfold finSym
    rw [h3]
    rfl

section
variable {C : Cfg n} {s : St n} {L : List Nat} {sy : Sym n} {hcm : List (Mon n)} {rrs trs : List (MRow n)}

theorem FinMat.row (h : FinMat C s L sy hcm rrs trs) {r : MRow n} (hr : r ∈ sy.tr ∨ r ∈ sy.rr) :
    PolyOk C.ord C.p (rowPoly s.els r) ∧ (∀ t ∈ rowPoly s.els r, t.1 ∈ hcm) ∧ r.gen < s.els.length ∧
    PivRow C.p hcm.length (leadCol s.els hcm r) (convRow hcm (rowPoly s.els r)) := by
  obtain ⟨h1, h2⟩ := h.inv.rows r (Or.inl (List.mem_append.mpr hr))
  have h3 : ∀ t ∈ rowPoly s.els r, t.1 ∈ hcm := fun t ht => h.cols.1.mem_iff.mpr (h2 t ht)
  exact ⟨rowPoly_ok h.ok h1, h3, h1, pivRow_conv h.cols.2 (rowPoly_ok h.ok h1) h3⟩

theorem FinMat.leadCol_inj (h : FinMat C s L sy hcm rrs trs) {r r' : MRow n} (hr : r ∈ sy.tr ∨ r ∈ sy.rr)
    (hr' : r' ∈ sy.tr ∨ r' ∈ sy.rr) (he : leadCol s.els hcm r = leadCol s.els hcm r') :
    lead (rowPoly s.els r) = lead (rowPoly s.els r') := by
  obtain ⟨a1, a2, _⟩ := h.row hr
  obtain ⟨b1, b2, _⟩ := h.row hr'
  exact idxOf_inj' (a2 _ a1.lead_mem) (b2 _ b1.lead_mem) he

theorem FinMat.pre (h : FinMat C s L sy hcm rrs trs) :
    (∀ i r, finPivs s.els hcm rrs i = some r → PivRow C.p hcm.length i r) ∧
    (∀ x ∈ trs.map (fun r => (leadCol s.els hcm r, convRow hcm (rowPoly s.els r))),
      PivRow C.p hcm.length x.1 x.2 ∧ finPivs s.els hcm rrs x.1 = none) ∧
    (trs.map (fun r => (leadCol s.els hcm r, convRow hcm (rowPoly s.els r)))).Pairwise (fun a b => b.1 < a.1) := by
  have hleads : ((sy.tr ++ sy.rr).map fun r => lead (rowPoly s.els r)).Nodup := h.inv.leads
  rw [List.map_append, List.nodup_append] at hleads
  refine ⟨?_, ?_, ?_⟩
  · intro i r hir
    obtain ⟨x, hx, rfl, rfl⟩ := finPivs_some hir
    exact (h.row (Or.inr (h.rrp.mem_iff.mp hx))).2.2.2
  · intro x hx
    obtain ⟨r, hr, rfl⟩ := List.mem_map.mp hx
    have hr' := h.trp.mem_iff.mp hr
    refine ⟨(h.row (Or.inl hr')).2.2.2, ?_⟩
    generalize hp : finPivs s.els hcm rrs (leadCol s.els hcm r) = res
    cases res with
    | none => rfl
    | some q =>
      obtain ⟨y, hy, he, _⟩ := finPivs_some hp
      have hy' := h.rrp.mem_iff.mp hy
      have := h.leadCol_inj (Or.inr hy') (Or.inl hr') he
      exact absurd this.symm (hleads.2.2 _ (List.mem_map_of_mem hr') _ (List.mem_map_of_mem hy'))
  · rw [List.pairwise_map]
    have hnd : trs.Pairwise fun a b => lead (rowPoly s.els a) ≠ lead (rowPoly s.els b) := by
      have : (trs.map fun r => lead (rowPoly s.els r)).Nodup := ((h.trp.map _).nodup_iff).mpr hleads.1
      rw [List.Nodup, List.pairwise_map] at this
      exact this
    refine List.Pairwise.imp_of_mem ?_ (h.sorted.and hnd)
    rintro a b ha hb ⟨h1, h2⟩
    refine lt_of_le_of_ne h1 fun he => h2 ?_
    exact (h.leadCol_inj (Or.inl (h.trp.mem_iff.mp hb)) (Or.inl (h.trp.mem_iff.mp ha)) he).symm

/-- The final reduction is defined and ends. -/
theorem finalL_exists (hC : CfgOk C) (hok : ∀ f ∈ s.els, PolyOk C.ord C.p f) (hlt : ∀ k ∈ L, k < s.els.length)
    (hmin : L.Pairwise (fun a b => ¬ lead (s.els.getD a []) ≤ lead (s.els.getD b []) ∧
      ¬ lead (s.els.getD b []) ≤ lead (s.els.getD a []))) (hLne : L ≠ []) : ∃ G, FinalL C s.els L G := by
  obtain ⟨⟨fuel, sy, hsy⟩, hinv⟩ := final_symLoop hok hlt hmin
  obtain ⟨h1, h2, h3⟩ := hinv fuel sy hsy
  obtain ⟨hcm, hcol⟩ := exists_cols C.ord { sy with mark := [] } h1.nodup
  let le : MRow n → MRow n → Prop := fun a b => leadCol s.els hcm b ≤ leadCol s.els hcm a
  have htot : Std.Total le := ⟨fun a b => le_total _ _⟩
  have htr : IsTrans (MRow n) le := ⟨fun a b c h1 h2 => le_trans (b := leadCol s.els hcm b) h2 h1⟩
  have : DecidableRel le := fun a b => inferInstanceAs (Decidable (leadCol s.els hcm b ≤ leadCol s.els hcm a))
  have hM : FinMat C s L sy hcm sy.rr (sy.tr.insertionSort le) :=
    ⟨hok, hlt, hmin, h1, h2, h3, hcol, .refl _, List.perm_insertionSort le _, List.pairwise_insertionSort le _⟩
  obtain ⟨p1, p2, p3⟩ := hM.pre
  obtain ⟨R, hR, _⟩ := finLoop_spec (par31_ok C.p 0 hcm.length hC.prime hC.p31 (Nat.zero_le _)) rfl _ _ p1 p2 p3
  exact ⟨_, fuel, sy, hcm, _, _, _, R, hLne, hsy, hcol, .refl _, List.perm_insertionSort le _,
    List.pairwise_insertionSort le _, Or.inl rfl, hR, rfl⟩

/-- The final phase is defined and ends. -/
theorem final_exists [Fact C.p.Prime] (hC : CfgOk C) {I : Ideal (MvPolynomial (Fin n) (ZMod C.p))}
    (h : Inv C I s) (hne : s.els ≠ []) : ∃ G, Final C s G := by
  obtain ⟨L, hL, hlt, hmin, hcov⟩ := finalLmps_spec h
  have hLne : L ≠ [] := by
    rintro rfl
    obtain ⟨k, hk, _⟩ := hcov 0 (List.length_pos_iff.mpr hne)
    simp at hk
  obtain ⟨G, hG⟩ := finalL_exists hC h.ok hlt hmin hLne
  exact ⟨G, L, hL, hG⟩

/-- A row of the final basis. -/
theorem FinMat.elem [Fact C.p.Prime] (h : FinMat C s L sy hcm rrs trs) {P : Par} (hPp : P.p = C.p)
    (hPn : P.ncols = hcm.length) {x : MRow n} (hx : x ∈ trs) {q : Row}
    (hq : FinOk P (finPivs s.els hcm rrs) (trs.map fun r => (leadCol s.els hcm r, convRow hcm (rowPoly s.els r)))
      (leadCol s.els hcm x, convRow hcm (rowPoly s.els x)) q) :
    lead (backRow hcm q) = lead (rowPoly s.els x) ∧ PolyOk C.ord C.p (backRow hcm q) ∧
    toMv C.p (backRow hcm q) ∈ Ideal.span { g | ∃ f ∈ s.els, g = toMv C.p f } ∧
    ∀ t ∈ backRow hcm q, t.1 = lead (rowPoly s.els x) ∨ ∀ k ∈ L, ¬ lead (s.els.getD k []) ≤ t.1 := by
  have hx' := h.trp.mem_iff.mp hx
  obtain ⟨x1, x2, x3, x4⟩ := h.row (Or.inl hx')
  have hbound : ∀ t ∈ q, t.1 < hcm.length := fun t ht => by rw [← hPn]; exact (hq.row.bound t ht).1
  obtain ⟨q', hq'⟩ := hq.row.head
  have hlead : lead (backRow hcm q) = lead (rowPoly s.els x) := by
    rw [hq']
    have hm := x2 _ x1.lead_mem
    change hcm.getD (leadCol s.els hcm x) 0 = _
    unfold leadCol
    rw [List.getD_eq_getElem _ _ (List.idxOf_lt_length_iff.mpr hm), List.getElem_idxOf]
  have hok : PolyOk C.ord C.p (backRow hcm q) := by
    refine ⟨⟨backRow hcm q', ?_⟩, ?_, ?_⟩
    · rw [hq']; rfl
    · have : (backRow hcm q).map Prod.fst = (q.map Prod.fst).map fun c => hcm.getD c 0 := by
        simp [backRow, Function.comp_def]
      rw [this, List.pairwise_map]
      refine List.Pairwise.imp_of_mem ?_ hq.sorted
      intro a b ha hb hab
      have la : a < hcm.length := by
        obtain ⟨t, ht, rfl⟩ := List.mem_map.mp ha
        exact hbound t ht
      have lb : b < hcm.length := by
        obtain ⟨t, ht, rfl⟩ := List.mem_map.mp hb
        exact hbound t ht
      rw [List.getD_eq_getElem _ _ la, List.getD_eq_getElem _ _ lb]
      rcases List.pairwise_iff_getElem.mp h.cols.2 a b la lb hab with h5 | h5
      · simp at h5
      · exact h5.2
    · intro t ht
      obtain ⟨y, hy, rfl⟩ := List.mem_map.mp ht
      exact ⟨hq.pos y hy, by rw [← hPp]; exact (hq.row.bound y hy).2⟩
  refine ⟨hlead, hok, ?_, ?_⟩
  · have hrow : ∀ r : MRow n, r ∈ sy.tr ∨ r ∈ sy.rr → phi C.p hcm (rvec C.p (convRow hcm (rowPoly s.els r))) ∈
        Ideal.span { g | ∃ f ∈ s.els, g = toMv C.p f } := by
      intro r hr
      obtain ⟨r1, r2, r3, r4⟩ := h.row hr
      rw [phi_rvec _ _ _ fun t ht => (r4.bound t ht).1, backRow_convRow _ _ r2, toMv_rowPoly]
      exact Ideal.mul_mem_left _ _ (Ideal.subset_span ⟨_, getD_mem r3, rfl⟩)
    have hsp := hq.span
    rw [hPp] at hsp
    rw [← phi_rvec _ _ _ hbound]
    suffices hle : allSpan C.p (finPivs s.els hcm rrs) ⊔ Submodule.span (ZMod C.p) { v | ∃ y ∈ trs.map fun r =>
        (leadCol s.els hcm r, convRow hcm (rowPoly s.els r)), v = rvec C.p y.2 } ≤
        ((Ideal.span { g | ∃ f ∈ s.els, g = toMv C.p f }).restrictScalars (ZMod C.p)).comap (phi C.p hcm) from
      hle hsp
    refine sup_le ?_ ?_
    · apply Submodule.span_le.mpr
      rintro v ⟨j, r, hj, rfl⟩
      obtain ⟨y, hy, _, rfl⟩ := finPivs_some hj
      exact hrow y (Or.inr (h.rrp.mem_iff.mp hy))
    · apply Submodule.span_le.mpr
      rintro v ⟨y, hy, rfl⟩
      obtain ⟨r, hr, rfl⟩ := List.mem_map.mp hy
      exact hrow r (Or.inl (h.trp.mem_iff.mp hr))
  · intro t ht
    obtain ⟨y, hy, rfl⟩ := List.mem_map.mp ht
    have ly := hbound y hy
    simp only
    rw [List.getD_eq_getElem _ _ ly]
    rcases hq.red y hy with h1 | ⟨h1, h2⟩
    · left
      simp only [leadCol] at h1
      have hm := List.idxOf_lt_length_iff.mpr (x2 _ x1.lead_mem)
      simp only [h1]
      rw [List.getElem_idxOf]
    · right
      have hmem : hcm[y.1] ∈ sy.ms := h.cols.1.mem_iff.mp (List.getElem_mem ly)
      rcases h.irred _ hmem with h3 | h3
      · exfalso
        obtain ⟨r, hr, he⟩ := (h.inv.mark _).mp h3
        have hidx : leadCol s.els hcm r = y.1 := by
          unfold leadCol
          rw [he, idxOf_getElem' (cols_nodup h.cols)]
        rcases List.mem_append.mp hr with hr | hr
        · exact h2 _ (List.mem_map.mpr ⟨r, h.trp.mem_iff.mpr hr, rfl⟩) hidx.symm
        · exact finPivs_none h1 r (h.rrp.mem_iff.mpr hr) hidx
      · exact h3

/-- What the final reduction returns: one element for each index, same leading monomial, in the ideal, no
term divisible by another leading monomial; smallest leading monomial first. -/
structure FinalOk (C : Cfg n) (els : List (Poly n)) (L : List Nat) (G : List (Poly n)) : Prop where
  mem : ∀ g ∈ G, ∃ k ∈ L, lead g = lead (els.getD k []) ∧ PolyOk C.ord C.p g ∧
      toMv C.p g ∈ Ideal.span { g | ∃ f ∈ els, g = toMv C.p f } ∧
      ∀ t ∈ g, t.1 = lead (els.getD k []) ∨ ∀ k ∈ L, ¬ lead (els.getD k []) ≤ t.1
  ex : ∀ k ∈ L, ∃ g ∈ G, lead g = lead (els.getD k [])
  sorted : G.Pairwise fun a b => C.ord.lt (lead a) (lead b)

theorem finalL_ok [Fact C.p.Prime] (hC : CfgOk C) (hok : ∀ f ∈ s.els, PolyOk C.ord C.p f) (hlt : ∀ k ∈ L, k < s.els.length)
    (hmin : L.Pairwise (fun a b => ¬ lead (s.els.getD a []) ≤ lead (s.els.getD b []) ∧
      ¬ lead (s.els.getD b []) ≤ lead (s.els.getD a []))) {G : List (Poly n)} (hG : FinalL C s.els L G) :
    FinalOk C s.els L G := by
  obtain ⟨fuel, sy, hcm, rrs, trs, P, R, hLne, hsy, hcol, hrr, htr, hsrt, hP, hR, rfl⟩ := hG
  obtain ⟨_, hinv⟩ := final_symLoop hok hlt hmin
  obtain ⟨h1, h2, h3⟩ := hinv fuel sy hsy
  have hM : FinMat C s L sy hcm rrs trs := ⟨hok, hlt, hmin, h1, h2, h3, hcol, hrr, htr, hsrt⟩
  obtain ⟨p1, p2, p3⟩ := hM.pre
  have hPp : P.p = C.p := by rcases hP with rfl | ⟨_, _, rfl⟩ <;> rfl
  have hPn : P.ncols = hcm.length := by rcases hP with rfl | ⟨_, _, rfl⟩ <;> rfl
  have hall : List.Forall₂ (FinOk P (finPivs s.els hcm rrs)
      (trs.map fun r => (leadCol s.els hcm r, convRow hcm (rowPoly s.els r))))
      (trs.map fun r => (leadCol s.els hcm r, convRow hcm (rowPoly s.els r))) R := by
    rcases hP with rfl | ⟨q1, q2, rfl⟩
    · obtain ⟨R', hR', hall⟩ := finLoop_spec (par31_ok C.p 0 hcm.length hC.prime hC.p31 (Nat.zero_le _)) rfl _ _ p1 p2 p3
      rw [hR] at hR'
      obtain rfl := Option.some.inj hR'
      exact hall
    · obtain ⟨R', hR', hall⟩ := finLoop_spec (par17_ok C.p 0 hcm.length hC.prime q1 q2 (Nat.zero_le _)) rfl _ _ p1 p2 p3
      rw [hR] at hR'
      obtain rfl := Option.some.inj hR'
      exact hall
  rw [List.forall₂_map_left_iff] at hall
  have hall2 : List.Forall₂ (fun x g => x ∈ trs ∧ lead g = lead (rowPoly s.els x) ∧ PolyOk C.ord C.p g ∧
      toMv C.p g ∈ Ideal.span { g | ∃ f ∈ s.els, g = toMv C.p f } ∧ ∀ t ∈ g, t.1 = lead (rowPoly s.els x) ∨ ∀ k ∈ L, ¬ lead (s.els.getD k []) ≤ t.1)
      trs (R.map (backRow hcm)) := by
    rw [List.forall₂_map_right_iff]
    rw [List.forall₂_iff_get] at hall ⊢
    refine ⟨hall.1, fun i hi hj => ?_⟩
    have hx : trs.get ⟨i, hi⟩ ∈ trs := List.getElem_mem hi
    have hq := hall.2 i hi hj
    obtain ⟨a1, a2, a3, a4⟩ := hM.elem hPp hPn hx hq
    exact ⟨hx, a1, a2, a3, a4⟩
  have hmem : ∀ g ∈ R.map (backRow hcm), ∃ k ∈ L, lead g = lead (s.els.getD k []) ∧ PolyOk C.ord C.p g ∧ toMv C.p g ∈ Ideal.span { g | ∃ f ∈ s.els, g = toMv C.p f } ∧
      ∀ t ∈ g, t.1 = lead (s.els.getD k []) ∨ ∀ k ∈ L, ¬ lead (s.els.getD k []) ≤ t.1 := by
    intro g hg
    obtain ⟨i, hi, rfl⟩ := List.mem_iff_getElem.mp hg
    have hi' : i < trs.length := by rw [hall2.length_eq]; exact hi
    obtain ⟨b1, b2, b3, b4, b5⟩ := (List.forall₂_iff_get.mp hall2).2 i hi' hi
    have hx := htr.mem_iff.mp b1
    rw [h2] at hx
    obtain ⟨k, hk, he⟩ := List.mem_map.mp hx
    refine ⟨k, hk, ?_, b3, b4, ?_⟩
    · have := b2
      rw [← he, rowPoly_one] at this
      exact this
    · have := b5
      rw [← he, rowPoly_one] at this
      exact this
  have hex : ∀ k ∈ L, ∃ g ∈ R.map (backRow hcm), lead g = lead (s.els.getD k []) := by
    intro k hk
    have hx : (⟨0, k⟩ : MRow n) ∈ trs := htr.mem_iff.mpr (by rw [h2]; exact List.mem_map.mpr ⟨k, hk, rfl⟩)
    obtain ⟨i, hi, he⟩ := List.mem_iff_getElem.mp hx
    have hi' : i < (R.map (backRow hcm)).length := by rw [← hall2.length_eq]; exact hi
    obtain ⟨_, b2, _⟩ := (List.forall₂_iff_get.mp hall2).2 i hi hi'
    refine ⟨_, List.getElem_mem hi', ?_⟩
    have := b2
    rw [List.get_eq_getElem, List.get_eq_getElem] at this
    rw [this, he, rowPoly_one]
  have hsorted : (R.map (backRow hcm)).Pairwise fun a b => C.ord.lt (lead a) (lead b) := by
    rw [List.pairwise_map] at p3
    rw [List.pairwise_iff_getElem]
    intro i j hi hj hij
    have hi' : i < trs.length := by rw [hall2.length_eq]; exact hi
    have hj' : j < trs.length := by rw [hall2.length_eq]; exact hj
    have hlt' := List.pairwise_iff_getElem.mp p3 i j hi' hj' hij
    have bi := ((List.forall₂_iff_get.mp hall2).2 i hi' hi)
    have bj := ((List.forall₂_iff_get.mp hall2).2 j hj' hj)
    simp only [List.get_eq_getElem] at bi bj
    rw [bi.2.1, bj.2.1]
    obtain ⟨u1, u2, _⟩ := hM.row (Or.inl (htr.mem_iff.mp (List.getElem_mem hi')))
    obtain ⟨v1, v2, _⟩ := hM.row (Or.inl (htr.mem_iff.mp (List.getElem_mem hj')))
    have lu := List.idxOf_lt_length_iff.mpr (u2 _ u1.lead_mem)
    have lv := List.idxOf_lt_length_iff.mpr (v2 _ v1.lead_mem)
    rcases List.pairwise_iff_getElem.mp hcol.2 _ _ lv lu hlt' with h5 | h5
    · simp at h5
    · have := h5.2
      rw [List.getElem_idxOf, List.getElem_idxOf] at this
      exact this
  exact ⟨hmem, hex, hsorted⟩

/-- If every element of the ideal has a leading monomial divisible by one of those with index in `L`, the
final reduction returns the reduced Gröbner basis, smallest leading monomial first. -/
theorem FinalOk.reduced [Fact C.p.Prime] {els : List (Poly n)} {I : Ideal (MvPolynomial (Fin n) (ZMod C.p))} {G : List (Poly n)}
    (hF : FinalOk C els L G) (hI : Ideal.span { g | ∃ f ∈ els, g = toMv C.p f } ≤ I)
    (hmin : L.Pairwise (fun a b => ¬ lead (els.getD a []) ≤ lead (els.getD b []) ∧
      ¬ lead (els.getD b []) ≤ lead (els.getD a [])))
    (hcov : ∀ f ∈ I, f ≠ 0 → ∃ k ∈ L, fs (lead (els.getD k [])) ≤ C.ord.mo.degree f) :
    IsReducedGroebner C.ord.mo I { g | ∃ f ∈ G, g = toMv C.p f } := by
  obtain ⟨hmem, hex, hsorted⟩ := hF
  refine ⟨⟨?_, ?_⟩, ?_, ?_⟩
  · rintro g ⟨f, hf, rfl⟩
    obtain ⟨k, _, _, _, h4, _⟩ := hmem f hf
    exact hI h4
  · intro f hf hf0
    obtain ⟨k, hk, hle⟩ := hcov f hf hf0
    obtain ⟨g, hg, hgl⟩ := hex k hk
    obtain ⟨_, _, _, hok, _⟩ := hmem g hg
    refine ⟨_, ⟨g, hg, rfl⟩, ne_zero_of_monic (m := C.ord.mo) hok.monic, ?_⟩
    rw [hok.degree, hgl]
    exact hle
  · rintro g ⟨f, hf, rfl⟩
    obtain ⟨k, _, _, hok, _⟩ := hmem f hf
    exact hok.monic
  · rintro g ⟨f, hf, rfl⟩ g' ⟨f', hf', rfl⟩ hne u hu hle
    obtain ⟨k, hk, hkl, hok, _, hterms⟩ := hmem f hf
    obtain ⟨k', hk', hkl', hok', _, _⟩ := hmem f' hf'
    obtain ⟨v, rfl⟩ := fs_surj u
    rw [hok'.degree, fs_le, hkl'] at hle
    have : ∃ t ∈ f, t.1 = v := by
      by_contra hno
      push Not at hno
      rw [mem_support_iff] at hu
      exact hu (toMv_coeff_zero _ _ _ hno)
    obtain ⟨t, ht, rfl⟩ := this
    rcases hterms t ht with h5 | h5
    · rw [h5] at hle
      have hkk : k = k' := by
        by_contra hkk
        obtain ⟨i, hi, rfl⟩ := List.mem_iff_getElem.mp hk
        obtain ⟨j, hj, rfl⟩ := List.mem_iff_getElem.mp hk'
        rcases Nat.lt_trichotomy i j with hij | rfl | hij
        · exact (List.pairwise_iff_getElem.mp hmin i j hi hj hij).2 hle
        · exact hkk rfl
        · exact (List.pairwise_iff_getElem.mp hmin j i hj hi hij).1 hle
      subst hkk
      apply hne
      have : f = f' := by
        obtain ⟨i, hi, rfl⟩ := List.mem_iff_getElem.mp hf
        obtain ⟨j, hj, rfl⟩ := List.mem_iff_getElem.mp hf'
        rcases Nat.lt_trichotomy i j with hij | rfl | hij
        · have := List.pairwise_iff_getElem.mp hsorted i j hi hj hij
          rw [hkl, hkl'] at this
          exact absurd this (C.ord.adm.irrefl _)
        · rfl
        · have := List.pairwise_iff_getElem.mp hsorted j i hj hi hij
          rw [hkl, hkl'] at this
          exact absurd this (C.ord.adm.irrefl _)
      rw [this]
    · exact h5 k' hk' hle

/-- The final phase returns the reduced Gröbner basis, smallest leading monomial first. -/
theorem final_reduced [Fact C.p.Prime] (hC : CfgOk C) {I : Ideal (MvPolynomial (Fin n) (ZMod C.p))}
    (h : Inv C I s) (hd : done s) {G : List (Poly n)} (hG : Final C s G) :
    IsReducedGroebner C.ord.mo I { g | ∃ f ∈ G, g = toMv C.p f } ∧ (∀ f ∈ G, PolyOk C.ord C.p f) ∧
    G.Pairwise fun a b => C.ord.lt (lead a) (lead b) := by
  obtain ⟨L, hL, hG⟩ := hG
  obtain ⟨L', hL', hlt, hmin, hcov⟩ := finalLmps_spec h
  rw [hL] at hL'
  obtain rfl := Option.some.inj hL'
  have hF := finalL_ok hC h.ok hlt hmin hG
  refine ⟨hF.reduced h.ideal.le hmin ?_, ?_, hF.sorted⟩
  · intro f hf hf0
    obtain ⟨g, ⟨e, he, rfl⟩, _, hle⟩ := (inv_groebner h hd).2 f hf hf0
    obtain ⟨i, hi, rfl⟩ := List.mem_iff_getElem.mp he
    obtain ⟨k, hk, hk'⟩ := hcov i hi
    refine ⟨k, hk, le_trans ?_ hle⟩
    rw [(h.ok _ he).degree, fs_le]
    rw [List.getD_eq_getElem s.els _ hi] at hk'
    exact hk'
  · intro f hf
    obtain ⟨_, _, _, hok, _⟩ := hF.mem f hf
    exact hok

end

end Verif.F4
