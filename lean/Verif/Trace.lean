import Verif.Props.F4
import Verif.TraceLin

/-! Model of the tracer of F4: the learning run modulo the first prime records in each round which rows were
needed (src/neogb/tools.c 41-200, src/neogb/f4.c 413-562), the runs modulo further primes only build these
rows (src/neogb/symbol.c 632-703).

Simplifications: as in `Symbolic`; the multipliers are stored as monomials instead of indices in the hash
table, which is shared (first run) or copied (basis.c 377-455). -/

namespace Verif.F4

open Verif.Pairs Verif.Spec Verif.RowReduce Verif.Echelon Verif.Props Verif.Orders Verif.Groebner MvPolynomial

variable {n : Nat}

/-! ### Learning -/

/-- Record of one round, `td_t`: reducer rows, rows to be reduced, leading monomials of the new elements. -/
structure TD (n : Nat) where
  rri : List (MRow n)
  tri : List (MRow n)
  nlms : List (Mon n)

/-- The trace: `td[0..ltd)` and `lmps`. -/
structure Tr (n : Nat) where
  td : List (TD n)
  lmps : List Nat

/-- Rows which became new pivots. -/
def wonList {k : Nat} (c : Conf k) : List (Fin k) := (List.finRange k).filter fun t => (c.th t).isWon

/-- Reducers used by one of these rows, tools.c 103-107. -/
def usedList (els : List (Poly n)) (hcm : List (Mon n)) (rrs trs : List (MRow n)) (P : Echelon.Par)
    (c : Conf trs.length) : List Nat :=
  (wonList c).flatMap fun t => rba P (pivs0 els hcm rrs) (leadCol els hcm trs[t]) (laRows els hcm trs t)

/-- `construct_trace`, tools.c 41-152, and `add_lms_to_trace`, tools.c 184-200.  The array `rba` of the record is
never read (symbol.c 685) and left out. -/
def mkTD (els : List (Poly n)) (hcm : List (Mon n)) (rrs trs : List (MRow n)) (P : Echelon.Par)
    (c : Conf trs.length) (N : List (Poly n)) : TD n :=
  { rri := ((List.range rrs.length).filter fun i => decide (i ∈ usedList els hcm rrs trs P c)).filterMap fun i => rrs[i]?
    tri := (wonList c).map fun t => trs[t]
    nlms := N.map lead }

/-- The record is kept only if there are new elements, f4.c 462-465. -/
def learn (T : List (TD n)) (N : List (Poly n)) (td : TD n) : List (TD n) := if N = [] then T else T ++ [td]

/-- Choice of the linear algebra, see `LaResult`. -/
def IsLaPar (p ncl ncols : Nat) (P : Echelon.Par) : Prop :=
  P = par31 p ncl ncols ∨ (p < 2 ^ 18 ∧ ncols < 2 ^ 27 ∧ P = par17 p ncl ncols)

/-- One round of the learning run, f4.c 690-720. -/
inductive LRound (C : Cfg n) : St n × List (TD n) → St n × List (TD n) → Prop
  | mk (s : St n) (T : List (TD n)) (stale : Mon n) (fuel : Nat) (sy : Sym n) (hcm : List (Mon n))
      (rrs trs : List (MRow n)) (P : Echelon.Par) (m : Nat) (c : Conf trs.length) (R : Nat → Option Row) :
      ¬ done s →
      symLoop s.els s.pst.lmps (selSym C stale s).ms.length fuel 0 (selSym C stale s) = some sy →
      IsCols C.ord sy hcm →
      rrs.Perm sy.rr → rrs.Pairwise (fun a b => leadCol s.els hcm a ≤ leadCol s.els hcm b) →
      trs.Perm sy.tr →
      IsLaPar C.p (nclOf sy) hcm.length P →
      Exec P m (initConf (pivs0 s.els hcm rrs) (laRows s.els hcm trs) (fun t => leadCol s.els hcm trs[t])) c →
      (∀ t, (c.th t).finished = true) →
      interreduce P c.pivs = some R →
      LRound C (s, T) (next C stale s (newPolys hcm R),
        learn T (newPolys hcm R) (mkTD s.els hcm rrs trs P c (newPolys hcm R)))

/-- States of the learning run. -/
inductive LReach (C : Cfg n) (F : List (Poly n)) : St n → List (TD n) → Prop
  | start : LReach C F (start C F) []
  | step {s s' : St n} {T T' : List (TD n)} : LReach C F s T → LRound C (s, T) (s', T') → LReach C F s' T'

/-- The learning run: `tr` is the trace, `G` the basis it returns (f4.c 478-562). -/
inductive Learn (C : Cfg n) (F : List (Poly n)) : Tr n → List (Poly n) → Prop
  | mk (s : St n) (T : List (TD n)) (L : List Nat) (G : List (Poly n)) :
      LReach C F s T → done s → finalLmps s = some L → FinalL C s.els L G → Learn C F ⟨T, L⟩ G

/-! ### Application -/

/-- `generate_matrix_from_trace`, symbol.c 632-703: only the leading monomials of the reducers are marked. -/
def appSym (els : List (Poly n)) (T : TD n) : Sym n :=
  { ms := (T.rri ++ T.tri).foldl (fun ms r => addAll ms (rowPoly els r)) []
    mark := T.rri.map fun r => lead (rowPoly els r)
    rr := T.rri
    tr := T.tri }

/-- One round of an application run, f4.c 413-476.  `none`: the prime is rejected (`*errp > 0`).
`zero`: some row is reduced to zero, la_ff_32.c 2672-2676; then `mat->np` is set to zero and differs from
`nlm` (in la_ff_16.c the flag is never set, but then there are fewer new elements than `nlm`).  `bad`: the
number of new elements or their leading monomials differ from those of the trace, f4.c 431-460. -/
inductive ARound (C : Cfg n) (els : List (Poly n)) (T : TD n) : Option (List (Poly n)) → Prop
  | zero (hcm : List (Mon n)) (rrs : List (MRow n)) (P : Echelon.Par) (m : Nat) (c : Conf T.tri.length)
      (t : Fin T.tri.length) :
      IsCols C.ord (appSym els T) hcm →
      rrs.Perm T.rri → rrs.Pairwise (fun a b => leadCol els hcm a ≤ leadCol els hcm b) →
      IsLaPar C.p (nclOf (appSym els T)) hcm.length P →
      Exec P m (initConf (pivs0 els hcm rrs) (laRows els hcm T.tri) (fun t => leadCol els hcm T.tri[t])) c →
      c.th t = .zero → ARound C els T none
  | bad (hcm : List (Mon n)) (rrs : List (MRow n)) (P : Echelon.Par) (m : Nat) (c : Conf T.tri.length)
      (R : Nat → Option Row) :
      IsCols C.ord (appSym els T) hcm →
      rrs.Perm T.rri → rrs.Pairwise (fun a b => leadCol els hcm a ≤ leadCol els hcm b) →
      IsLaPar C.p (nclOf (appSym els T)) hcm.length P →
      Exec P m (initConf (pivs0 els hcm rrs) (laRows els hcm T.tri) (fun t => leadCol els hcm T.tri[t])) c →
      (∀ t, (c.th t).isWon = true) → interreduce P c.pivs = some R →
      (newPolys hcm R).map lead ≠ T.nlms → ARound C els T none
  | ok (hcm : List (Mon n)) (rrs : List (MRow n)) (P : Echelon.Par) (m : Nat) (c : Conf T.tri.length)
      (R : Nat → Option Row) :
      IsCols C.ord (appSym els T) hcm →
      rrs.Perm T.rri → rrs.Pairwise (fun a b => leadCol els hcm a ≤ leadCol els hcm b) →
      IsLaPar C.p (nclOf (appSym els T)) hcm.length P →
      Exec P m (initConf (pivs0 els hcm rrs) (laRows els hcm T.tri) (fun t => leadCol els hcm T.tri[t])) c →
      (∀ t, (c.th t).isWon = true) → interreduce P c.pivs = some R →
      (newPolys hcm R).map lead = T.nlms → ARound C els T (some (els ++ newPolys hcm R))

/-- The rounds of an application run. -/
inductive ARun (C : Cfg n) : List (TD n) → List (Poly n) → Option (List (Poly n)) → Prop
  | nil (els : List (Poly n)) : ARun C [] els (some els)
  | bad {T : TD n} {l : List (TD n)} {els : List (Poly n)} : ARound C els T none → ARun C (T :: l) els none
  | step {T : TD n} {l : List (TD n)} {els els' : List (Poly n)} {r : Option (List (Poly n))} :
      ARound C els T (some els') → ARun C l els' r → ARun C (T :: l) els r

/-- The record in a fresh trace, modular.c 44-63: all counters zero. -/
def TD.empty : TD n := ⟨[], [], []⟩

/-- The loop f4.c 690-712 makes at least one round, also if nothing was recorded. -/
def Tr.rounds (tr : Tr n) : List (TD n) := if tr.td = [] then [TD.empty] else tr.td

/-- An application run: the returned basis, `none` if the prime is rejected (`NULL`).  The redundant elements are
those of the learning run, f4.c 524-537. -/
inductive Apply (C : Cfg n) (F : List (Poly n)) (tr : Tr n) : Option (List (Poly n)) → Prop
  | bad : ARun C tr.rounds F none → Apply C F tr none
  | ok (els G : List (Poly n)) : ARun C tr.rounds F (some els) → FinalL C els tr.lmps G → Apply C F tr (some G)

/-! ### Spans -/

section
variable {K : Type*} [Field K] {m : MonomialOrder (Fin n)}

/-- A combination of monic polynomials with different leading monomials which has none of these monomials as
a term is zero. -/
theorem span_avoid_zero {R : Set (MvPolynomial (Fin n) K)} (hm : ∀ r ∈ R, m.leadingCoeff r = 1)
    (hd : ∀ r ∈ R, ∀ s ∈ R, m.degree r = m.degree s → r = s) {y : MvPolynomial (Fin n) K}
    (h : y ∈ Submodule.span K R) (h0 : ∀ r ∈ R, coeff (m.degree r) y = 0) : y = 0 := by
  obtain ⟨c, hc, rfl⟩ := Submodule.mem_span_set.mp h
  by_cases he : c.support.Nonempty
  · exfalso
    obtain ⟨s, hs, hmax⟩ := c.support.exists_max_image (fun r => m.toSyn (m.degree r)) he
    have := h0 s (hc hs)
    rw [Finsupp.sum, coeff_sum, Finset.sum_eq_single s] at this
    · rw [coeff_smul, show coeff (m.degree s) s = 1 from hm s (hc hs), smul_eq_mul, mul_one] at this
      exact Finsupp.mem_support_iff.mp hs this
    · intro t ht hts
      rw [coeff_smul, m.coeff_eq_zero_of_lt, smul_zero]
      refine lt_of_le_of_ne (hmax t ht) ?_
      intro he
      exact hts (hd t (hc ht) s (hc hs) (m.toSyn.injective he))
    · intro h
      exact absurd hs h
  · rw [Finset.not_nonempty_iff_eq_empty] at he
    rw [Finsupp.sum, he, Finset.sum_empty]

theorem span_coeff_zero {A : Set (MvPolynomial (Fin n) K)} {d : Fin n →₀ ℕ} (h : ∀ a ∈ A, coeff d a = 0)
    {x : MvPolynomial (Fin n) K} (hx : x ∈ Submodule.span K A) : coeff d x = 0 := by
  induction hx using Submodule.span_induction with
  | mem v hv => exact h v hv
  | zero => rfl
  | add a b _ _ ha hb => rw [coeff_add, ha, hb, add_zero]
  | smul a b _ hb => rw [coeff_smul, hb, smul_zero]

/-- A combination of `R` and `A` without leading monomials of `R`, which `A` does not have either, is a
combination of `A`. -/
theorem span_avoid {R A : Set (MvPolynomial (Fin n) K)} (hm : ∀ r ∈ R, m.leadingCoeff r = 1)
    (hd : ∀ r ∈ R, ∀ s ∈ R, m.degree r = m.degree s → r = s) (hA : ∀ r ∈ R, ∀ a ∈ A, coeff (m.degree r) a = 0)
    {x : MvPolynomial (Fin n) K} (h : x ∈ Submodule.span K (R ∪ A)) (hx : ∀ r ∈ R, coeff (m.degree r) x = 0) :
    x ∈ Submodule.span K A := by
  rw [Submodule.span_union] at h
  obtain ⟨y, hy, z, hz, rfl⟩ := Submodule.mem_sup.mp h
  have : y = 0 := by
    refine span_avoid_zero hm hd hy fun r hr => ?_
    have h1 := hx r hr
    rw [coeff_add, span_coeff_zero (hA r hr) hz, add_zero] at h1
    exact h1
  rw [this, zero_add]
  exact hz

/-- The leading monomial of a nonzero combination is one of the leading monomials. -/
theorem span_degree {R : Set (MvPolynomial (Fin n) K)} (hm : ∀ r ∈ R, m.leadingCoeff r = 1)
    (hd : ∀ r ∈ R, ∀ s ∈ R, m.degree r = m.degree s → r = s) {y : MvPolynomial (Fin n) K}
    (h : y ∈ Submodule.span K R) (h0 : y ≠ 0) : ∃ r ∈ R, m.degree r = m.degree y := by
  have h1 := span_distinct hm hd h
  by_contra hno
  push Not at hno
  apply h0
  have : coeff (m.degree y) y = 0 := by
    refine span_coeff_zero ?_ h1
    rintro r ⟨hr, hle⟩
    apply m.coeff_eq_zero_of_lt
    refine lt_of_le_of_ne hle fun he => hno r hr (m.toSyn.injective he)
  have h2 : m.leadingCoeff y = 0 := this
  exact m.leadingCoeff_eq_zero_iff.mp h2
end

/-! ### New elements are reduced -/

/-- The new elements have no term in a marked column and no term that is the leading monomial of another one;
they are sorted by decreasing leading monomial. -/
structure NewRed (O : OKind) (p : Nat) (mark : List (Mon n)) (N : List (Poly n)) : Prop where
  avoid : ∀ f ∈ N, ∀ t ∈ f, t.1 ∉ mark
  red : ∀ f ∈ N, ∀ t ∈ f, t.1 ≠ lead f → ∀ g ∈ N, lead g ≠ t.1
  sorted : N.Pairwise fun a b => O.lt (lead b) (lead a)

theorem MatInv.newRed {O : OKind} {p : Nat} {els : List (Poly n)} {s : Sym n} {hcm : List (Mon n)}
    {rrs trs : List (MRow n)} (h : MatInv O p els s hcm rrs trs) {R : Nat → Option Row}
    (hR : IsReducedEchelon p (nclOf s) hcm.length (pivs0 els hcm rrs) (laRows els hcm trs) R) :
    NewRed O p s.mark (newPolys hcm R) := by
  obtain ⟨hrow, _⟩ := hR
  have hnd := cols_nodup h.cols
  have hlead : ∀ c r, R c = some r → lead (backRow hcm r) = hcm.getD c 0 := by
    intro c r hr
    obtain ⟨_, ⟨r', h2⟩, _⟩ := hrow c r hr
    rw [h2]
    rfl
  have hclt : ∀ c r, R c = some r → c < hcm.length := by
    intro c r hr
    obtain ⟨_, ⟨r', h2⟩, _, h4⟩ := hrow c r hr
    exact (h4 (c, 1) (by rw [h2]; exact List.mem_cons_self)).1
  have hge : ∀ c r, R c = some r → ∀ t ∈ r, c ≤ t.1 := by
    intro c r hr t ht
    obtain ⟨h1, ⟨r', h2⟩, h3, h4⟩ := hrow c r hr
    rw [h2, List.map_cons, List.pairwise_cons] at h3
    rw [h2] at ht
    rcases List.mem_cons.mp ht with rfl | ht
    · exact le_rfl
    · exact (h3.1 _ (List.mem_map_of_mem ht)).le
  refine ⟨?_, ?_, ?_⟩
  · intro f hf t ht
    obtain ⟨c, r, hc, hr, rfl⟩ := mem_newPolys.mp hf
    obtain ⟨x, hx, rfl⟩ := List.mem_map.mp ht
    obtain ⟨h1, _, _, h4⟩ := hrow c r hr
    have lx := (h4 x hx).1
    simp only
    rw [List.getD_eq_getElem _ _ lx, mark_iff_lt h.cols lx]
    have := hge c r hr x hx
    omega
  · intro f hf t ht hne g hg he
    obtain ⟨c, r, hc, hr, rfl⟩ := mem_newPolys.mp hf
    obtain ⟨d, q, hd, hq, rfl⟩ := mem_newPolys.mp hg
    obtain ⟨x, hx, rfl⟩ := List.mem_map.mp ht
    obtain ⟨h1, _, _, h4⟩ := hrow c r hr
    obtain ⟨lx, _, _, hred⟩ := h4 x hx
    rw [hlead d q hq, List.getD_eq_getElem _ _ hd] at he
    simp only at he
    rw [List.getD_eq_getElem _ _ lx] at he
    have hdx : d = x.1 := (List.Nodup.getElem_inj_iff hnd).mp he
    have hxc : x.1 ≠ c := by
      intro hxc
      apply hne
      rw [hlead c r hr]
      simp only [hxc]
    have := hred hxc
    rw [← hdx, hq] at this
    exact absurd this (by simp)
  · unfold newPolys
    rw [List.pairwise_filterMap]
    refine List.Pairwise.imp_of_mem ?_ List.pairwise_lt_range
    intro a b _ _ hab f hf g hg
    simp only [Option.map_eq_some_iff] at hf hg
    obtain ⟨r, hr, rfl⟩ := hf
    obtain ⟨q, hq, rfl⟩ := hg
    have la := hclt a r hr
    have lb := hclt b q hq
    rw [hlead a r hr, hlead b q hq, List.getD_eq_getElem _ _ la, List.getD_eq_getElem _ _ lb]
    have ga := (hrow a r hr).1
    rcases List.pairwise_iff_getElem.mp h.cols.2 a b la lb hab with h5 | h5
    · exact absurd ((mark_iff_lt h.cols la).mp h5.1) (by omega)
    · exact h5.2

/-- The elements spanning a space in reduced form are determined by the space. -/
theorem newRed_unique {O : OKind} {p : Nat} [Fact p.Prime] {mark mark' : List (Mon n)} {N N' : List (Poly n)}
    (hN : ∀ f ∈ N, PolyOk O p f) (hN' : ∀ f ∈ N', PolyOk O p f) (h : NewRed O p mark N) (h' : NewRed O p mark' N')
    (hs : Submodule.span (ZMod p) { g | ∃ f ∈ N, g = toMv p f } = Submodule.span (ZMod p) { g | ∃ f ∈ N', g = toMv p f }) :
    N = N' := by
  have hmon : ∀ {N : List (Poly n)}, (∀ f ∈ N, PolyOk O p f) → ∀ r ∈ { g | ∃ f ∈ N, g = toMv p f },
      O.mo.leadingCoeff r = 1 := by
    rintro N hN r ⟨f, hf, rfl⟩
    exact (hN f hf).monic
  have hinj : ∀ {N : List (Poly n)} {mark : List (Mon n)}, (∀ f ∈ N, PolyOk O p f) → NewRed O p mark N →
      ∀ f ∈ N, ∀ g ∈ N, lead f = lead g → f = g := by
    intro N mark hN h f hf g hg he
    by_contra hne
    obtain ⟨i, hi, rfl⟩ := List.mem_iff_getElem.mp hf
    obtain ⟨j, hj, rfl⟩ := List.mem_iff_getElem.mp hg
    rcases Nat.lt_trichotomy i j with hij | hij | hij
    · have := List.pairwise_iff_getElem.mp h.sorted i j hi hj hij
      rw [he] at this
      exact O.adm.irrefl _ this
    · subst hij; exact hne rfl
    · have := List.pairwise_iff_getElem.mp h.sorted j i hj hi hij
      rw [he] at this
      exact O.adm.irrefl _ this
  have hdist : ∀ {N : List (Poly n)} {mark : List (Mon n)}, (∀ f ∈ N, PolyOk O p f) → NewRed O p mark N →
      ∀ r ∈ { g | ∃ f ∈ N, g = toMv p f }, ∀ s ∈ { g | ∃ f ∈ N, g = toMv p f }, O.mo.degree r = O.mo.degree s → r = s := by
    rintro N mark hN h r ⟨f, hf, rfl⟩ s ⟨g, hg, rfl⟩ he
    rw [(hN f hf).degree, (hN g hg).degree, fs_inj] at he
    rw [hinj hN h f hf g hg he]
  have hlead : ∀ {N N' : List (Poly n)} {mark mark' : List (Mon n)}, (∀ f ∈ N, PolyOk O p f) → (∀ f ∈ N', PolyOk O p f) →
      NewRed O p mark N → NewRed O p mark' N' →
      Submodule.span (ZMod p) { g | ∃ f ∈ N, g = toMv p f } = Submodule.span (ZMod p) { g | ∃ f ∈ N', g = toMv p f } →
      ∀ f ∈ N, ∃ g ∈ N', lead g = lead f := by
    intro N N' mark mark' hN hN' h h' hs f hf
    have h1 : toMv p f ∈ Submodule.span (ZMod p) { g | ∃ f ∈ N', g = toMv p f } := by
      rw [← hs]; exact Submodule.subset_span ⟨f, hf, rfl⟩
    obtain ⟨r, ⟨g, hg, rfl⟩, hr⟩ := span_degree (hmon hN') (hdist hN' h') h1 (ne_zero_of_monic (m := O.mo) (hN f hf).monic)
    refine ⟨g, hg, ?_⟩
    rw [(hN' g hg).degree, (hN f hf).degree, fs_inj] at hr
    exact hr
  have hsub : ∀ {N N' : List (Poly n)} {mark mark' : List (Mon n)}, (∀ f ∈ N, PolyOk O p f) → (∀ f ∈ N', PolyOk O p f) →
      NewRed O p mark N → NewRed O p mark' N' →
      Submodule.span (ZMod p) { g | ∃ f ∈ N, g = toMv p f } = Submodule.span (ZMod p) { g | ∃ f ∈ N', g = toMv p f } →
      ∀ f ∈ N, f ∈ N' := by
    intro N N' mark mark' hN hN' h h' hs f hf
    obtain ⟨g, hg, hgf⟩ := hlead hN hN' h h' hs f hf
    have heq : toMv p f - toMv p g = 0 := by
      refine span_avoid_zero (hmon hN) (hdist hN h) ?_ ?_
      · apply Submodule.sub_mem
        · exact Submodule.subset_span ⟨f, hf, rfl⟩
        · rw [hs]; exact Submodule.subset_span ⟨g, hg, rfl⟩
      · rintro r ⟨e, he, rfl⟩
        rw [(hN e he).degree, coeff_sub]
        by_cases hef : lead e = lead f
        · have e1 := (hN f hf).monic
          have e2 := (hN' g hg).monic
          rw [MonomialOrder.leadingCoeff, (hN f hf).degree] at e1
          rw [MonomialOrder.leadingCoeff, (hN' g hg).degree] at e2
          rw [hef, e1, ← hgf, e2, sub_self]
        · obtain ⟨e', he', hee'⟩ := hlead hN hN' h h' hs e he
          rw [toMv_coeff_zero p f, toMv_coeff_zero p g, sub_self]
          · intro t ht hte
            refine h'.red g hg t ht ?_ e' he' (by rw [hee', hte])
            rw [hte, hgf]; exact hef
          · intro t ht hte
            refine h.red f hf t ht ?_ e he hte.symm
            rw [hte]; exact hef
    have := toMv_injOn (hN f hf) (hN' g hg) (sub_eq_zero.mp heq)
    rw [this]; exact hg
  have hnod : ∀ {N : List (Poly n)} {mark : List (Mon n)}, NewRed O p mark N → N.Nodup := by
    intro N mark h
    refine h.sorted.imp fun hab he => ?_
    rw [he] at hab
    exact O.adm.irrefl _ hab
  have hperm : N.Perm N' := (List.perm_ext_iff_of_nodup (hnod h) (hnod h')).mpr fun f =>
    ⟨hsub hN hN' h h' hs f, hsub hN' hN h' h hs.symm f⟩
  refine hperm.eq_of_pairwise (le := fun a b => O.lt (lead b) (lead a)) ?_ h.sorted h'.sorted
  intro a b _ _ h1 h2
  exact absurd (O.adm.trans _ _ _ h1 h2) (O.adm.irrefl _)

/-! ### The linear algebra of a learning round -/

theorem isLaPar_ok {p ncl ncols : Nat} (hp : p.Prime) (hp31 : p < 2 ^ 31) (hn : ncl ≤ ncols) {P : Echelon.Par}
    (h : IsLaPar p ncl ncols P) : (∃ Ok, ParOk P Ok) ∧ P.p = p ∧ P.ncl = ncl ∧ P.ncols = ncols := by
  rcases h with rfl | ⟨h1, h2, rfl⟩
  · exact ⟨⟨_, par31_ok p ncl ncols hp hp31 hn⟩, rfl, rfl, rfl⟩
  · exact ⟨⟨_, par17_ok p ncl ncols hp h1 h2 hn⟩, rfl, rfl, rfl⟩

theorem laResult_iff {p ncl ncols : Nat} {pivs : Nat → Option Row} {k : Nat} {rows : Fin k → Row} {sc : Fin k → Nat}
    {R : Nat → Option Row} : LaResult p ncl ncols pivs rows sc R ↔ ∃ P m c, IsLaPar p ncl ncols P ∧
      Exec P m (initConf pivs rows sc) c ∧ (∀ t, (c.th t).finished = true) ∧ interreduce P c.pivs = some R := by
  constructor
  · rintro (⟨m, c, h1, h2, h3⟩ | ⟨a, b, m, c, h1, h2, h3⟩)
    · exact ⟨_, m, c, Or.inl rfl, h1, h2, h3⟩
    · exact ⟨_, m, c, Or.inr ⟨a, b, rfl⟩, h1, h2, h3⟩
  · rintro ⟨P, m, c, rfl | ⟨a, b, rfl⟩, h1, h2, h3⟩
    · exact Or.inl ⟨m, c, h1, h2, h3⟩
    · exact Or.inr ⟨a, b, m, c, h1, h2, h3⟩

/-- The polynomials of a list of rows. -/
def rowSet (p : Nat) (els : List (Poly n)) (l : List (MRow n)) : Set (MvPolynomial (Fin n) (ZMod p)) :=
  { g | ∃ r ∈ l, g = toMv p (rowPoly els r) }

/-- The polynomials of a list. -/
def polySet (p : Nat) (l : List (Poly n)) : Set (MvPolynomial (Fin n) (ZMod p)) := { g | ∃ f ∈ l, g = toMv p f }

theorem phi_coeff (p : Nat) {hcm : List (Mon n)} (hnd : hcm.Nodup) {c : Nat} (hc : c < hcm.length) (v : Nat → ZMod p) :
    coeff (fs hcm[c]) (phi p hcm v) = v c := by
  unfold phi
  rw [LinearMap.sum_apply, coeff_sum, Finset.sum_eq_single c]
  · simp only [LinearMap.comp_apply, LinearMap.proj_apply, coeff_monomial, List.getD_eq_getElem _ _ hc, if_true]
  · intro d hd hdc
    have hd := Finset.mem_range.mp hd
    simp only [LinearMap.comp_apply, LinearMap.proj_apply, coeff_monomial, List.getD_eq_getElem _ _ hd]
    rw [if_neg]
    rw [fs_inj]
    intro he
    exact hdc ((List.Nodup.getElem_inj_iff hnd).mp he)
  · intro h
    exact absurd (Finset.mem_range.mpr hc) h

section
variable {O : OKind} {P : Echelon.Par} {Ok : Nat → (Nat → Int) → Prop} {els : List (Poly n)} {s : Sym n}
  {hcm : List (Mon n)} {rrs trs : List (MRow n)}

theorem mem_wonList {k : Nat} {c : Conf k} {t : Fin k} : t ∈ wonList c ↔ (c.th t).isWon = true := by
  simp [wonList]

theorem MatInv.rr_poly {p : Nat} (h : MatInv O p els s hcm rrs trs) {j : Nat} {r : Row} (hj : pivs0 els hcm rrs j = some r) :
    ∃ x, rrs[j]? = some x ∧ phi p hcm (rvec p r) = toMv p (rowPoly els x) := by
  simp only [pivs0, Option.map_eq_some_iff] at hj
  obtain ⟨x, hx, rfl⟩ := hj
  have hxm : x ∈ s.rr := h.rr.mem_iff.mp (List.mem_of_getElem? hx)
  refine ⟨x, hx, ?_⟩
  rw [phi_rvec _ _ _ fun t ht => ((h.row_cols (Or.inl hxm)).2.1 t ht).2.1,
    backRow_convRow _ _ (h.row (Or.inl hxm)).2.2]

theorem MatInv.tr_poly {p : Nat} (h : MatInv O p els s hcm rrs trs) (t : Fin trs.length) :
    phi p hcm (rvec p (laRows els hcm trs t)) = toMv p (rowPoly els trs[t]) := by
  have ht : trs[t] ∈ s.tr := h.tr.mem_iff.mp (List.getElem_mem _)
  simp only [laRows]
  rw [phi_rvec _ _ _ fun x hx => ((h.row_cols (Or.inr ht)).2.1 x hx).2.1,
    backRow_convRow _ _ (h.row (Or.inr ht)).2.2]

/-- The new elements are combinations of the reducers and of the rows which became pivots. -/
theorem MatInv.won_span (h : MatInv O P.p els s hcm rrs trs) (hP : ParOk P Ok) (hncl : P.ncl = nclOf s)
    (hcols : P.ncols = hcm.length) {m : Nat} {c : Conf trs.length}
    (he : Exec P m (initConf (pivs0 els hcm rrs) (laRows els hcm trs) (fun t => leadCol els hcm trs[t])) c)
    (hfin : ∀ t, (c.th t).finished = true) {R : Nat → Option Row} (hR : interreduce P c.pivs = some R)
    {f : Poly n} (hf : f ∈ newPolys hcm R) :
    toMv P.p f ∈ Submodule.span (ZMod P.p) (rowSet P.p els s.rr ∪ rowSet P.p els ((wonList c).map fun t => trs[t])) := by
  have hpre := h.pre
  rw [← hncl, ← hcols] at hpre
  obtain ⟨h1, h2⟩ := wonInv_exec hP hpre he
  obtain ⟨R', e, hrref, hsp, _⟩ := interreduce_ok hP hpre.known h1 hfin
  rw [hR] at e
  obtain rfl := Option.some.inj e
  obtain ⟨j, r, hj, hr, rfl⟩ := mem_newPolys.mp hf
  have hv : rvec P.p r ∈ allSpan P.p R := Submodule.subset_span ⟨j, r, hr, rfl⟩
  have hv2 : rvec P.p r ∈ allSpan P.p (pivs0 els hcm rrs) ⊔
      Submodule.span (ZMod P.p) { v | ∃ t, (c.th t).isWon = true ∧ v = rvec P.p (laRows els hcm trs t) } := by
    apply h2.span
    rw [final_span h1 hfin, ← hsp]
    exact Submodule.mem_sup_right hv
  have hlt : ∀ t ∈ r, t.1 < hcm.length := fun t ht => by
    have := ((hrref.row j r hr).1.bound t ht).1
    omega
  rw [← phi_rvec P.p hcm r hlt, Submodule.span_union]
  have := Submodule.mem_map_of_mem (f := phi P.p hcm) hv2
  rw [Submodule.map_sup] at this
  refine sup_le_sup (α := Submodule (ZMod P.p) (MvPolynomial (Fin n) (ZMod P.p))) ?_ ?_ this
  · rw [allSpan, Submodule.map_span]
    apply Submodule.span_mono
    rintro _ ⟨v, ⟨j, r, hj, rfl⟩, rfl⟩
    obtain ⟨x, hx, e⟩ := h.rr_poly hj
    exact ⟨x, h.rr.mem_iff.mp (List.mem_of_getElem? hx), e⟩
  · rw [Submodule.map_span]
    apply Submodule.span_mono
    rintro _ ⟨v, ⟨t, ht, rfl⟩, rfl⟩
    exact ⟨trs[t], List.mem_map.mpr ⟨t, mem_wonList.mpr ht, rfl⟩, h.tr_poly t⟩

theorem mem_mkTD_rri {c : Conf trs.length} {N : List (Poly n)} {r : MRow n} :
    r ∈ (mkTD els hcm rrs trs P c N).rri ↔ ∃ i ∈ usedList els hcm rrs trs P c, rrs[i]? = some r := by
  simp only [mkTD, List.mem_filterMap, List.mem_filter, List.mem_range, decide_eq_true_eq]
  constructor
  · rintro ⟨i, ⟨_, h2⟩, h3⟩; exact ⟨i, h2, h3⟩
  · rintro ⟨i, h2, h3⟩; exact ⟨i, ⟨(List.getElem?_eq_some_iff.mp h3).1, h2⟩, h3⟩

/-- Reduction of a recorded row by the recorded reducers. -/
theorem MatInv.used (h : MatInv O P.p els s hcm rrs trs) (hP : ParOk P Ok) (hncl : P.ncl = nclOf s)
    (hcols : P.ncols = hcm.length) {c : Conf trs.length} {N : List (Poly n)} {r : MRow n}
    (hr : r ∈ (mkTD els hcm rrs trs P c N).tri) :
    (∃ w, w - toMv P.p (rowPoly els r) ∈ Submodule.span (ZMod P.p) (rowSet P.p els (mkTD els hcm rrs trs P c N).rri) ∧
      ∀ m ∈ s.mark, coeff (fs m) w = 0) ∧
    ∃ r' ∈ (mkTD els hcm rrs trs P c N).rri, lead (rowPoly els r') = lead (rowPoly els r) := by
  have hpre := h.pre
  rw [← hncl, ← hcols] at hpre
  obtain ⟨t, ht, rfl⟩ := List.mem_map.mp hr
  have htm : trs[t] ∈ s.tr := h.tr.mem_iff.mp (List.getElem_mem _)
  constructor
  · obtain ⟨v, h1, h2, _⟩ := rba_spec hP hpre.piv (fun c hc => (hpre.known c).mpr hc) (hpre.rows t)
    refine ⟨phi P.p hcm v, ?_, ?_⟩
    · have := Submodule.mem_map_of_mem (f := phi P.p hcm) h1
      rw [map_sub, h.tr_poly] at this
      refine Submodule.span_le.mpr ?_ (by rwa [listSpan, Submodule.map_span] at this)
      rintro _ ⟨_, ⟨j, q, hj, hq, rfl⟩, rfl⟩
      obtain ⟨x, hx, e⟩ := h.rr_poly hq
      rw [e]
      refine Submodule.subset_span ⟨x, mem_mkTD_rri.mpr ⟨j, ?_, hx⟩, rfl⟩
      exact List.mem_flatMap.mpr ⟨t, ht, hj⟩
    · intro m hm
      obtain ⟨x, hx, rfl⟩ := (h.inv.mark m).mp hm
      obtain ⟨x1, _, x3⟩ := h.row (Or.inl hx)
      have x4 : lead (rowPoly els x) ∈ hcm := x3 _ x1.lead_mem
      obtain ⟨i, hi, e⟩ := List.mem_iff_getElem.mp x4
      have hlt := (mark_iff_lt h.cols hi).mp (e ▸ hm)
      rw [← e, phi_coeff _ (cols_nodup h.cols)]
      exact h2 i (by omega)
  · obtain ⟨b1, b2, b3⟩ := h.row (Or.inr htm)
    have hlt := List.idxOf_lt_length_iff.mpr (b3 _ b1.lead_mem)
    have hl : leadCol els hcm trs[t] < nclOf s := by
      apply (mark_iff_lt h.cols hlt).mp
      rw [List.getElem_idxOf]
      exact b2
    have hp0 := (hpre.known (leadCol els hcm trs[t])).mpr (by omega)
    have hfill : fill (laRows els hcm trs t) (leadCol els hcm trs[t]) = 1 := by
      obtain ⟨⟨r', e⟩, c2, c3⟩ := h.row_cols (Or.inr htm)
      have e' : laRows els hcm trs t = (leadCol els hcm trs[t], 1) :: r' := e
      have hnd : ((laRows els hcm trs t).map Prod.fst).Nodup := c3
      rw [e', List.map_cons, List.nodup_cons] at hnd
      rw [e', fill, List.foldl_cons]
      have key : ∀ (l : Row) (d : Nat → Int), (∀ x ∈ l, x.1 ≠ leadCol els hcm trs[t]) →
          l.foldl (fun dr x => Function.update dr x.1 (x.2 : Int)) d (leadCol els hcm trs[t]) = d (leadCol els hcm trs[t]) := by
        intro l
        induction l with
        | nil => intro d _; rfl
        | cons a l ih =>
          intro d hl
          rw [List.foldl_cons, ih _ fun x hx => hl x (List.mem_cons_of_mem _ hx),
            Function.update_of_ne (hl a List.mem_cons_self).symm]
      rw [key _ _ fun x hx hxe => hnd.1 (List.mem_map.mpr ⟨x, hx, hxe⟩)]
      simp
    have hmem := rba_start hP (by omega : leadCol els hcm trs[t] < P.ncl) hp0 hfill
    obtain ⟨q, hq⟩ := Option.ne_none_iff_exists'.mp hp0
    obtain ⟨x, hx, _⟩ := h.rr_poly hq
    refine ⟨x, mem_mkTD_rri.mpr ⟨_, List.mem_flatMap.mpr ⟨t, ht, hmem⟩, hx⟩, ?_⟩
    have hxm : x ∈ s.rr := h.rr.mem_iff.mp (List.mem_of_getElem? hx)
    obtain ⟨x1, _, x3⟩ := h.row (Or.inl hxm)
    refine idxOf_inj' (x3 _ x1.lead_mem) (b3 _ b1.lead_mem) ?_
    have : (rrs.map (leadCol els hcm))[leadCol els hcm trs[t]]? = some (leadCol els hcm x) := by
      rw [List.getElem?_map, hx]; rfl
    rw [h.leadCols] at this
    obtain ⟨a1, a2⟩ := List.getElem?_eq_some_iff.mp this
    rw [List.getElem_range] at a2
    exact a2.symm

/-- As many recorded rows as new elements. -/
theorem MatInv.won_length (h : MatInv O P.p els s hcm rrs trs) (hP : ParOk P Ok) (hncl : P.ncl = nclOf s)
    (hcols : P.ncols = hcm.length) {m : Nat} {c : Conf trs.length}
    (he : Exec P m (initConf (pivs0 els hcm rrs) (laRows els hcm trs) (fun t => leadCol els hcm trs[t])) c)
    {R : Nat → Option Row} (hR : interreduce P c.pivs = some R) :
    (wonList c).length = (newPolys hcm R).length := by
  have hpre := h.pre
  rw [← hncl, ← hcols] at hpre
  have := won_card hP hpre he hR
  have e1 : (wonList c).length = (Finset.univ.filter fun t => (c.th t).isWon = true).card := by
    unfold wonList
    rw [← List.toFinset_card_of_nodup ((List.nodup_finRange _).filter _)]
    congr 1
    ext t
    simp
  have e2 : (newPolys hcm R).length = ((Finset.range P.ncols).filter fun j => R j ≠ none).card := by
    have : ∀ l : List Nat, l.Nodup → (l.filterMap fun c => (R c).map (backRow hcm)).length =
        (l.toFinset.filter fun j => R j ≠ none).card := by
      intro l hl
      have : l.toFinset.filter (fun j => R j ≠ none) = (l.filter fun j => (R j).isSome).toFinset := by
        ext j; simp [Option.isSome_iff_ne_none]
      rw [this, List.toFinset_card_of_nodup (hl.filter _)]
      clear hl this
      induction l with
      | nil => rfl
      | cons a l ih =>
        rcases ha : R a with _ | r
        · simp [ha, ih]
        · simp [ha, ih]
    rw [hcols, newPolys, this _ List.nodup_range, List.toFinset_range]
  rw [e1, e2, this]

end

/-- A partial execution can be completed; finished rows stay as they are. -/
theorem la_extend {P : Echelon.Par} {pivs : Nat → Option Row} {k : Nat} {rows : Fin k → Row} {sc : Fin k → Nat}
    (h : EchelonSound P pivs rows sc) {m : Nat} {c : Conf k} (hc : Exec P m (initConf pivs rows sc) c) :
    ∃ m' c', Exec P m' (initConf pivs rows sc) c' ∧ (∀ t, (c'.th t).finished = true) ∧
      ∀ t, (c.th t).finished = true → c'.th t = c.th t := by
  by_contra hno
  push Not at hno
  obtain ⟨N, hN⟩ := h.bounded
  have : ∀ j, ∃ c', Exec P (m + j) (initConf pivs rows sc) c' ∧ ∀ t, (c.th t).finished = true → c'.th t = c.th t := by
    intro j
    induction j with
    | zero => exact ⟨_, hc, fun _ _ => rfl⟩
    | succ j ih =>
      obtain ⟨c', hc', hk⟩ := ih
      have : ∃ t, (c'.th t).finished = false := by
        by_contra hall
        push Not at hall
        obtain ⟨t, h1, h2⟩ := hno _ c' hc' (fun t => by simpa using hall t)
        exact h2 (hk t h1)
      obtain ⟨t, hf⟩ := this
      have hp := h.progress _ c' hc' t hf
      generalize hr : thStep P c'.pivs (c'.th t) = res at hp
      cases res with
      | none => exact absurd rfl hp
      | some x =>
        refine ⟨_, .step hc' (.mk c' t x.1 x.2 hf hr), ?_⟩
        intro t' ht'
        have : t' ≠ t := by
          rintro rfl
          rw [← hk _ ht'] at ht'
          rw [hf] at ht'
          exact absurd ht' (by simp)
        simp only [Function.update_of_ne this]
        exact hk t' ht'
  obtain ⟨c', hc', _⟩ := this (N + 1)
  have := hN _ c' hc'
  omega

end Verif.F4
