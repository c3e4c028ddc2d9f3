import Verif.Saturate
import Mathlib.RingTheory.MvPolynomial.Basic

/-! The kernel computed in a saturation step, in terms of polynomials. -/

namespace Verif.F4

open Verif.Pairs Verif.Spec Verif.RowReduce Verif.Normalize Verif.Echelon Verif.Props Verif.Orders Verif.Groebner
open Verif.SatKernel Verif.ProbLA MvPolynomial

variable {n : Nat}

/-! ### Vectors and polynomials -/

theorem phi_apply (p : Nat) (hcm : List (Mon n)) (v : Nat → ZMod p) :
    phi p hcm v = ∑ c ∈ Finset.range hcm.length, monomial (fs (hcm.getD c 0)) (v c) := by
  unfold phi
  rw [LinearMap.sum_apply]
  rfl

theorem phi_coeff_sat (p : Nat) {hcm : List (Mon n)} (hn : hcm.Nodup) (v : Nat → ZMod p) {c : Nat} (hc : c < hcm.length) :
    coeff (fs (hcm.getD c 0)) (phi p hcm v) = v c := by
  rw [phi_apply, coeff_sum, Finset.sum_eq_single c]
  · rw [coeff_monomial, if_pos rfl]
  · intro d hd hdc
    rw [coeff_monomial, if_neg]
    intro he
    rw [fs_inj, List.getD_eq_getElem _ _ (Finset.mem_range.mp hd), List.getD_eq_getElem _ _ hc] at he
    exact hdc ((List.Nodup.getElem_inj_iff hn).mp he)
  · intro h; exact absurd (Finset.mem_range.mpr hc) h

theorem phi_inj (p : Nat) {hcm : List (Mon n)} (hn : hcm.Nodup) {v : Nat → ZMod p}
    (hv : ∀ c, hcm.length ≤ c → v c = 0) (h : phi p hcm v = 0) : v = 0 := by
  funext c
  by_cases hc : c < hcm.length
  · rw [← phi_coeff_sat p hn v hc, h, coeff_zero]; rfl
  · exact hv c (by omega)

theorem phi_support (p : Nat) (hcm : List (Mon n)) (v : Nat → ZMod p) {u : Fin n →₀ ℕ} (hu : u ∈ (phi p hcm v).support) :
    ∃ m ∈ hcm, u = fs m := by
  classical
  rw [phi_apply] at hu
  have := Finset.mem_of_subset (support_sum (s := Finset.range hcm.length)) hu
  rw [Finset.mem_biUnion] at this
  obtain ⟨c, hc, hcu⟩ := this
  have hlt := Finset.mem_range.mp hc
  have := Finset.mem_of_subset support_monomial_subset hcu
  rw [Finset.mem_singleton] at this
  refine ⟨hcm.getD c 0, ?_, this⟩
  rw [List.getD_eq_getElem _ _ hlt]
  exact List.getElem_mem hlt

theorem convRow_backRow {hcm : List (Mon n)} (hn : hcm.Nodup) : ∀ {r : Row}, (∀ t ∈ r, t.1 < hcm.length) →
    convRow hcm (backRow hcm r) = r := by
  intro r
  induction r with
  | nil => intro _; rfl
  | cons t r ih =>
    intro h
    have : convRow hcm (backRow hcm (t :: r)) = (hcm.idxOf (hcm.getD t.1 0), t.2) :: convRow hcm (backRow hcm r) := rfl
    have ht := h t List.mem_cons_self
    rw [this, ih fun x hx => h x (List.mem_cons_of_mem _ hx), List.getD_eq_getElem _ _ ht, idxOf_getElem' hn]

/-! ### Normal forms -/

/-- The stored normal form comes from a sparse row. -/
theorem NfMat.srow {O : OKind} {p : Nat} {els : List (Poly n)} {lmps : List Nat} {tbr : List (Poly n)} {sy : Sym n}
    {hcm : List (Mon n)} {rrs : List (MRow n)} (h : NfMat O p els lmps tbr sy hcm rrs) [hp : Fact p.Prime]
    (hp31 : p < 2 ^ 31) {f : Poly n} (hf : f ∈ tbr) (hin : InPoly p f) {g : Poly n}
    (hg : nfRow (par31 p (nclOf sy) hcm.length) hcm (pivs0 els hcm rrs) f = some (some g)) :
    convRow hcm g ≠ [] ∧ SRow p hcm.length (convRow hcm g) ∧ ∀ t ∈ g, t.1 ∈ hcm := by
  have hpre := h.mat.pre
  have hncl := hpre.left
  have hPok := par31_ok p (nclOf sy) hcm.length hp.out hp31 hncl
  have hcols := h.cols f hf
  have hlenlt : ∀ t ∈ convRow hcm f, t.1 < hcm.length ∧ t.2 < p := by
    intro t ht
    obtain ⟨x, hx, rfl⟩ := List.mem_map.mp ht
    exact ⟨List.idxOf_lt_length_iff.mpr (hcols x hx), hin.coeff x hx⟩
  have hE := hPok.elim
  have hE0 := hE.init (fill (convRow hcm f)) (fill_range p hp.out.pos _ fun t ht => (hlenlt t ht).2)
  obtain ⟨dr', res, hred, hok⟩ := reduceRow_spec hE hp.out.pos (by simp only [par31]; omega) hpre.piv
    (ncl := nclOf sy) (dpiv := 0) hE0
    (Nat.zero_le _) hncl (fun c hc => absurd hc (by omega))
    (fun c hc => fill_zero _ _ fun t ht => by have := (hlenlt t ht).1; simp only [par31] at hc; omega)
    (fun c hc => Or.inr ((hpre.known c).mpr hc))
  unfold nfRow at hg
  have e : reduceRow (par31 p (nclOf sy) hcm.length).elim (par31 p (nclOf sy) hcm.length).p (pivs0 els hcm rrs)
      (par31 p (nclOf sy) hcm.length).ncl (par31 p (nclOf sy) hcm.length).ncols 0 (fill (convRow hcm f)) = some (dr', res) := hred
  rw [e, Option.map_some] at hg
  have hg' := Option.some.inj hg
  obtain ⟨r, hr, rfl⟩ := Option.map_eq_some_iff.mp hg'
  simp only at hr
  obtain ⟨_, r2, r3, r4⟩ := hok.row r hr
  have hcr : convRow hcm (backRow hcm r) = r := convRow_backRow (cols_nodup h.mat.cols) fun t ht => (r4 t ht).2.2.1
  rw [hcr]
  refine ⟨r2, ⟨r3, fun t ht => ?_⟩, ?_⟩
  · obtain ⟨_, _, x3, x4, x5, _⟩ := r4 t ht
    exact ⟨x3, x4, x5⟩
  · intro t ht
    obtain ⟨x, hx, rfl⟩ := List.mem_map.mp ht
    obtain ⟨_, _, x3, _⟩ := r4 x hx
    simp only
    rw [List.getD_eq_getElem _ _ x3]
    exact List.getElem_mem x3

theorem mem_zip_mapM {α : Type*} {F : Poly n → Option α} : ∀ {l : List (Mon n × Poly n)} {N : List α},
    (l.map Prod.snd).mapM F = some N → N.length = l.length ∧
      ∀ x ∈ (l.map Prod.fst).zip N, ∃ h, (x.1, h) ∈ l ∧ F h = some x.2
  | [], N, h => by
    simp only [List.map_nil, List.mapM_nil, Option.pure_def, Option.some.injEq] at h
    subst h
    exact ⟨rfl, by simp⟩
  | e :: l, N, h => by
    simp only [List.map_cons, List.mapM_cons, Option.bind_eq_bind, Option.bind_eq_some_iff, Option.pure_def,
      Option.some.injEq] at h
    obtain ⟨x, hx, N', hN', rfl⟩ := h
    obtain ⟨a1, a2⟩ := mem_zip_mapM hN'
    refine ⟨by rw [List.length_cons, List.length_cons, a1], ?_⟩
    intro y hy
    rw [List.map_cons, List.zip_cons_cons] at hy
    rcases List.mem_cons.mp hy with rfl | hy
    · exact ⟨e.2, List.mem_cons_self, hx⟩
    · obtain ⟨h, h1, h2⟩ := a2 y hy
      exact ⟨h, List.mem_cons_of_mem _ h1, h2⟩

/-! ### The kernel -/

/-- The vector of the normal form stored for a multiplier. -/
def satVec (p : Nat) (hcm : List (Mon n)) (Z : List (Mon n × Option (Poly n))) (m : Mon n) : Nat → ZMod p :=
  match Z.find? fun e => decide (e.1 = m) with
  | some (_, some g) => rvec p (convRow hcm g)
  | _ => 0

theorem find_of_mem {α : Type*} : ∀ {Z : List (Mon n × α)} (_ : (Z.map Prod.fst).Nodup) {e : Mon n × α} (_ : e ∈ Z),
    Z.find? (fun x => decide (x.1 = e.1)) = some e
  | [], _, e, he => absurd he List.not_mem_nil
  | z :: Z, hn, e, he => by
    rw [List.map_cons, List.nodup_cons] at hn
    rcases List.mem_cons.mp he with rfl | he
    · simp
    · rw [List.find?_cons_of_neg, find_of_mem hn.2 he]
      simp only [decide_eq_true_eq]
      intro h
      exact hn.1 (h ▸ List.mem_map_of_mem he)

/-- What the computation of the kernel gives: `Ψ` maps the coefficient vector of a combination of multipliers
to the normal form of the combination times the element `f`. -/
structure KerFacts (O : OKind) (p : Nat) (els : List (Poly n)) (lmps : List Nat)
    (J : Ideal (MvPolynomial (Fin n) (ZMod p))) (f : MvPolynomial (Fin n) (ZMod p)) (hcmm : List (Mon n)) (K : List Row)
    (Ψ : (Nat → ZMod p) →ₗ[ZMod p] MvPolynomial (Fin n) (ZMod p)) : Prop where
  congr : ∀ c, Ψ c - phi p hcmm c * f ∈ J
  irr : ∀ c, ∀ u ∈ (Ψ c).support, ∀ g ∈ redSet p els lmps, g ≠ 0 → ¬ O.mo.degree g ≤ u
  rows : ∀ r ∈ K, r ≠ [] ∧ SRow p hcmm.length r
  ker : ∀ c, (∀ k, hcmm.length ≤ k → c k = 0) → (Ψ c = 0 ↔ c ∈ kerSpan p K)

/-- A stored element: a polynomial congruent to its multiplier times `f`. -/
def SatOk (p : Nat) (J : Ideal (MvPolynomial (Fin n) (ZMod p))) (f : MvPolynomial (Fin n) (ZMod p)) (m : Mon n)
    (g : Poly n) : Prop :=
  InPoly p g ∧ toMv p g - monomial (fs m) 1 * f ∈ J

theorem OutPoly.inPoly {O : OKind} {p : Nat} {g : Poly n} (h : OutPoly O p g) : InPoly p g :=
  ⟨h.sorted.imp fun hab he => by rw [he] at hab; exact O.adm.irrefl _ hab, fun t ht => (h.coeff t ht).2⟩

theorem kerSpan_app (p : Nat) (K K' : List Row) : kerSpan p (K ++ K') = kerSpan p K ⊔ kerSpan p K' := by
  unfold kerSpan
  rw [← Submodule.span_union]
  congr 1
  ext m
  simp [or_and_right, exists_or]

theorem kerSpan_perm (p : Nat) {K K' : List Row} (h : K.Perm K') : kerSpan p K = kerSpan p K' := by
  unfold kerSpan
  congr 1
  ext m
  simp [h.mem_iff]

theorem kernel_facts {C : Cfg n} [hp : Fact C.p.Prime] (hp31 : C.p < 2 ^ 31) {els : List (Poly n)}
    (hok : ∀ f ∈ els, PolyOk C.ord C.p f) {lmps : List Nat} (hlm : ∀ k ∈ lmps, k < els.length)
    {J : Ideal (MvPolynomial (Fin n) (ZMod C.p))} (hJ : Ideal.span (redSet C.p els lmps) ≤ J)
    {f : MvPolynomial (Fin n) (ZMod C.p)} {sat1 : List (Mon n × Poly n)} (hnd : (sat1.map Prod.fst).Nodup)
    (hsat : ∀ e ∈ sat1, SatOk C.p J f e.1 e.2) {N : List (Option (Poly n))} {hcmm : List (Mon n)} {K : List Row}
    (h : Kernel C els lmps sat1 N hcmm K) :
    (∀ m g, (m, some g) ∈ (sat1.map Prod.fst).zip N → SatOk C.p J f m g) ∧ hcmm.Perm (sat1.map Prod.fst) ∧
    hcmm.Pairwise (fun a b => C.ord.lt b a) ∧
    ∃ Ψ, KerFacts C.ord C.p els lmps J f hcmm K Ψ := by
  obtain ⟨fuel, sy, hcm, rrs, N, hcmm, l, K2, K, hs, hrr, hc, hpr, hso, hN, hmp, hms, hl, hls, hk, hK⟩ := h
  have hM := nfMat_of (p := C.p) hok hlm hs hc hpr hso
  have hP : IsPar C.p (nclOf sy) hcm.length (par31 C.p (nclOf sy) hcm.length) := Or.inl rfl
  obtain ⟨hNlen, hZ⟩ := mem_zip_mapM hN
  set Z := (sat1.map Prod.fst).zip N with hZdef
  have hZfst : Z.map Prod.fst = sat1.map Prod.fst := by
    rw [hZdef, List.map_fst_zip]
    rw [List.length_map]; omega
  have hZnd : (Z.map Prod.fst).Nodup := by rw [hZfst]; exact hnd
  -- one element
  have hel : ∀ e ∈ Z, (∀ g, e.2 = some g → SatOk C.p J f e.1 g ∧ convRow hcm g ≠ [] ∧ SRow C.p hcm.length (convRow hcm g) ∧
      (∀ t ∈ g, t.1 ∈ hcm)) ∧ resMv C.p e.2 - monomial (fs e.1) 1 * f ∈ J ∧
      ∀ u ∈ (resMv C.p e.2).support, ∀ g ∈ redSet C.p els lmps, g ≠ 0 → ¬ C.ord.mo.degree g ≤ u := by
    intro e he
    obtain ⟨h, h1, h2⟩ := hZ e he
    obtain ⟨s1, s2⟩ := hsat _ h1
    have htbr : h ∈ sat1.map Prod.snd := List.mem_map.mpr ⟨_, h1, rfl⟩
    obtain ⟨r, r1, r2, r3⟩ := hM.row hp31 hP htbr s1 hlm
    rw [h2] at r1
    obtain rfl := Option.some.inj r1
    have hcong : resMv C.p e.2 - monomial (fs e.1) 1 * f ∈ J := by
      have : resMv C.p e.2 - monomial (fs e.1) 1 * f = (toMv C.p h - monomial (fs e.1) 1 * f) - (toMv C.p h - resMv C.p e.2) := by ring
      rw [this]
      exact Ideal.sub_mem _ s2 (hJ r3.1)
    refine ⟨?_, hcong, r3.2⟩
    intro g hg
    rw [hg] at h2 hcong
    obtain ⟨b1, b2, b3⟩ := hM.srow hp31 htbr s1 h2
    exact ⟨⟨(r2 g hg).inPoly, hcong⟩, b1, b2, b3⟩
  refine ⟨fun m g hg => ((hel _ hg).1 g rfl).1, hmp, hms, ?_⟩
  have hld : hcmm.length = sat1.length := by rw [hmp.length_eq, List.length_map]
  have hmnd : hcmm.Nodup := hmp.nodup_iff.mpr hnd
  set v : Nat → Nat → ZMod C.p := fun k => satVec C.p hcm Z (hcmm.getD k 0) with hv
  -- values of v
  have hval : ∀ e ∈ Z, satVec C.p hcm Z e.1 = match e.2 with | some g => rvec C.p (convRow hcm g) | none => 0 := by
    intro e he
    unfold satVec
    rw [find_of_mem hZnd he]
    obtain ⟨m, o⟩ := e
    cases o <;> rfl
  have hphi : ∀ e ∈ Z, phi C.p hcm (satVec C.p hcm Z e.1) = resMv C.p e.2 := by
    intro e he
    rw [hval e he]
    rcases ho : e.2 with _ | g
    · simp only; rw [map_zero]; rfl
    · simp only
      obtain ⟨_, _, b2, b3⟩ := (hel e he).1 g ho
      rw [phi_rvec _ _ _ fun t ht => (b2.bound t ht).1, backRow_convRow _ _ b3]
      rfl
  have hcolmem : ∀ k, k < sat1.length → ∃ o, (hcmm.getD k 0, o) ∈ Z := by
    intro k hk
    have hk' : k < hcmm.length := by omega
    have : hcmm.getD k 0 ∈ Z.map Prod.fst := by
      rw [hZfst, ← hmp.mem_iff, List.getD_eq_getElem _ _ hk']
      exact List.getElem_mem hk'
    obtain ⟨⟨m, o⟩, he, h1⟩ := List.mem_map.mp this
    exact ⟨o, h1 ▸ he⟩
  have hidx : ∀ e ∈ Z, hcmm.idxOf e.1 < sat1.length ∧ hcmm.getD (hcmm.idxOf e.1) 0 = e.1 := by
    intro e he
    have hm : e.1 ∈ hcmm := by rw [hmp.mem_iff, ← hZfst]; exact List.mem_map_of_mem he
    have := List.idxOf_lt_length_iff.mpr hm
    refine ⟨by omega, ?_⟩
    rw [List.getD_eq_getElem _ _ this, List.getElem_idxOf]
  -- rows of the second phase
  have hsr : ∀ q, q ∈ l → ∃ m g, (m, some g) ∈ Z ∧ q.2.1 = hcmm.idxOf m ∧ q.2.2 = convRow hcm g := by
    intro q hq
    have := hl.mem_iff.mp hq
    unfold satRows at this
    rw [List.mem_filterMap] at this
    obtain ⟨⟨⟨m, o⟩, i⟩, he, hq'⟩ := this
    rw [Option.map_eq_some_iff] at hq'
    obtain ⟨g, hg, rfl⟩ := hq'
    simp only at hg
    subst hg
    exact ⟨m, g, List.fst_mem_of_mem_zipIdx he, rfl, rfl⟩
  have hsr' : ∀ m g, (m, some g) ∈ Z → hcmm.idxOf m ∈ l.map fun q => q.2.1 := by
    intro m g hm
    obtain ⟨i, hi⟩ := List.mem_iff_getElem?.mp hm
    have : (i, hcmm.idxOf m, convRow hcm g) ∈ satRows hcm hcmm Z := by
      unfold satRows
      rw [List.mem_filterMap]
      refine ⟨((m, some g), i), ?_, rfl⟩
      rw [List.mem_zipIdx_iff_getElem?]
      exact hi
    exact List.mem_map.mpr ⟨_, hl.mem_iff.mpr this, rfl⟩
  have hKOk0 : KOk C.p hcm.length sat1.length v [] (fun _ => none) [] := by
    refine ⟨⟨by simp, by simp, by simp⟩, by simp, ?_⟩
    simp [mulSpan, kerSpan, unitSpan]
  obtain ⟨K2', pv, e1, hKO⟩ := kernelLoop_ok (v := v) hp.out hp31 l [] (fun _ => none) [] hKOk0 (kernelLoop_pos _ _ _ _ hk)
    (by
      intro q hq
      obtain ⟨m, g, hm, q1, q2⟩ := hsr q hq
      obtain ⟨b1, b2⟩ := hidx _ hm
      obtain ⟨_, c1, c2, _⟩ := (hel _ hm).1 g rfl
      simp only at b1 b2
      refine ⟨by rw [q1]; exact b1, by rw [q2]; exact c1, by rw [q2]; exact c2, ?_⟩
      simp only [hv]
      rw [q1, b2, q2, hval _ hm])
    (by
      rw [List.nil_append, List.Nodup, List.pairwise_map]
      exact hls.imp fun h => h.ne)
  rw [hk] at e1
  obtain rfl := Option.some.inj e1
  rw [List.nil_append] at hKO
  -- zero rows
  have hzr : ∀ r, r ∈ zeroRows hcmm Z ↔ ∃ m, (m, none) ∈ Z ∧ r = [(hcmm.idxOf m, 1)] := by
    intro r
    unfold zeroRows
    rw [List.mem_filterMap]
    constructor
    · rintro ⟨⟨m, o⟩, he, h1⟩
      split_ifs at h1 with h2
      simp only at h2
      subst h2
      exact ⟨m, he, (Option.some.inj h1).symm⟩
    · rintro ⟨m, hm, rfl⟩
      exact ⟨(m, none), hm, by rw [if_pos rfl]⟩
  have hKsp : kerSpan C.p K = kerSpan C.p (zeroRows hcmm Z) ⊔ kerSpan C.p K2 := by
    rw [kerSpan_perm _ hK, kerSpan_app]
  have hz0 : kerSpan C.p (zeroRows hcmm Z) ≤ LinearMap.ker (combL C.p sat1.length v) := by
    apply Submodule.span_le.mpr
    rintro x ⟨r, hr, rfl⟩
    obtain ⟨m, hm, rfl⟩ := (hzr r).mp hr
    obtain ⟨b1, b2⟩ := hidx _ hm
    simp only [SetLike.mem_coe, LinearMap.mem_ker]
    rw [rvec_cons, rvec_nil, add_zero, combL_single v b1]
    simp only [hv]
    rw [b2, hval _ hm, smul_zero]
  have hk0 : kerSpan C.p K2 ≤ LinearMap.ker (combL C.p sat1.length v) := by
    apply Submodule.span_le.mpr
    rintro x ⟨r, hr, rfl⟩
    exact (hKO.ker r hr).2.2
  refine ⟨phi C.p hcm ∘ₗ combL C.p sat1.length v, ?_, ?_, ?_, ?_⟩
  · intro c
    rw [LinearMap.comp_apply, combL_apply, map_sum, phi_apply, Finset.sum_mul, hld, ← Finset.sum_sub_distrib]
    refine Ideal.sum_mem _ fun k hk => ?_
    obtain ⟨o, ho⟩ := hcolmem k (Finset.mem_range.mp hk)
    have h1 := (hel _ ho).2.1
    have h2 := hphi _ ho
    simp only at h1 h2
    rw [map_smul, hv]
    simp only
    rw [h2]
    have : monomial (fs (hcmm.getD k 0)) (c k) = c k • monomial (R := ZMod C.p) (fs (hcmm.getD k 0)) 1 := by
      rw [smul_monomial, smul_eq_mul, mul_one]
    rw [this, smul_mul_assoc, ← smul_sub, MvPolynomial.smul_eq_C_mul]
    exact Ideal.mul_mem_left _ _ h1
  · intro c u hu g hg hg0
    rw [LinearMap.comp_apply, combL_apply, map_sum] at hu
    classical
    have := Finset.mem_of_subset (support_sum (s := Finset.range sat1.length)) hu
    rw [Finset.mem_biUnion] at this
    obtain ⟨k, hk, hku⟩ := this
    obtain ⟨o, ho⟩ := hcolmem k (Finset.mem_range.mp hk)
    rw [map_smul] at hku
    have hku := support_smul hku
    have h2 := hphi _ ho
    simp only [hv] at hku
    simp only at h2
    rw [h2] at hku
    exact (hel _ ho).2.2 u hku g hg hg0
  · intro r hr
    rcases List.mem_append.mp (hK.mem_iff.mp hr) with h1 | h1
    · obtain ⟨m, hm, rfl⟩ := (hzr r).mp h1
      refine ⟨by simp, by simp, ?_⟩
      intro t ht
      rw [List.mem_singleton] at ht
      subst ht
      exact ⟨by rw [hld]; exact (hidx _ hm).1, by norm_num, hp.out.one_lt⟩
    · rw [hld]
      exact ⟨(hKO.ker r h1).1, (hKO.ker r h1).2.1⟩
  · intro c hc
    rw [hld] at hc
    rw [LinearMap.comp_apply]
    constructor
    · intro h0
      have hcv : combL C.p sat1.length v c = 0 := by
        refine phi_inj _ (cols_nodup hM.mat.cols) ?_ h0
        intro j hj
        rw [combL_apply, Finset.sum_apply]
        refine Finset.sum_eq_zero fun k hk => ?_
        obtain ⟨o, ho⟩ := hcolmem k (Finset.mem_range.mp hk)
        have h2 := hval _ ho
        simp only at h2
        rw [Pi.smul_apply, hv]
        simp only
        rw [h2]
        rcases o with _ | g
        · simp
        · simp only
          obtain ⟨_, _, b2, _⟩ := (hel _ ho).1 g rfl
          have : rvec C.p (convRow hcm g) j = 0 := rvec_zero _ _ _ fun t ht => by have := (b2.bound t ht).1; omega
          rw [this, smul_zero]
      have hdec : c ∈ kerSpan C.p (zeroRows hcmm Z) ⊔ unitSpan C.p (l.map fun q => q.2.1) := by
        have : c = ∑ k ∈ Finset.range sat1.length, c k • Pi.single k (1 : ZMod C.p) := by
          funext j
          rw [Finset.sum_apply]
          by_cases hj : j < sat1.length
          · rw [Finset.sum_eq_single j]
            · simp
            · intro k _ hk; simp [Pi.single_eq_of_ne hk.symm]
            · intro h; exact absurd (Finset.mem_range.mpr hj) h
          · rw [hc j (by omega), Finset.sum_eq_zero]
            intro k hk
            have := Finset.mem_range.mp hk
            simp [Pi.single_eq_of_ne (show j ≠ k by omega)]
        rw [this]
        refine Submodule.sum_mem _ fun k hk => Submodule.smul_mem _ _ ?_
        have hk := Finset.mem_range.mp hk
        obtain ⟨o, ho⟩ := hcolmem k hk
        have hid : hcmm.idxOf (hcmm.getD k 0) = k := by
          rw [List.getD_eq_getElem _ _ (by omega : k < hcmm.length), idxOf_getElem' hmnd]
        rcases o with _ | g
        · refine Submodule.mem_sup_left (Submodule.subset_span ⟨_, (hzr _).mpr ⟨_, ho, rfl⟩, ?_⟩)
          rw [hid, rvec_cons, rvec_nil, add_zero, Nat.cast_one]
        · exact Submodule.mem_sup_right (Submodule.subset_span ⟨k, by have := hsr' _ _ ho; rwa [hid] at this, rfl⟩)
      obtain ⟨a, ha, b, hb, rfl⟩ := Submodule.mem_sup.mp hdec
      rw [map_add, hz0 ha, zero_add] at hcv
      rw [hKsp]
      exact Submodule.add_mem _ (Submodule.mem_sup_left ha) (Submodule.mem_sup_right (hKO.complete hb hcv))
    · intro hcK
      rw [hKsp] at hcK
      have := sup_le hz0 hk0 hcK
      rw [LinearMap.mem_ker] at this
      rw [this, map_zero]

end Verif.F4
