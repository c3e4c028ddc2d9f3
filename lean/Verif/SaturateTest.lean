import Verif.SaturateProof

/-! The test for saturation, kernels on Gröbner bases, termination. -/

namespace Verif.F4

open Verif.Pairs Verif.Spec Verif.RowReduce Verif.Normalize Verif.Echelon Verif.Props Verif.Orders Verif.Groebner
open Verif.SatKernel Verif.ProbLA MvPolynomial

variable {n : Nat}

/-! ### The test -/

/-- Invariant of the loop in the test.  Rows may be lost, so nothing is known about the pairs. -/
structure WInv (C : Cfg n) [Fact C.p.Prime] (I : Ideal (MvPolynomial (Fin n) (ZMod C.p))) (s : St n) : Prop where
  ok : ∀ f ∈ s.els, PolyOk C.ord C.p f
  ld : s.pst.ld = s.els.length
  lo : s.pst.lo = s.els.length
  pinv : PInv (elsOf C.ord.nev s.els) (fun _ _ => True) s.pst
  mem : ∀ f ∈ s.els, toMv C.p f ∈ I
  const : s.const = true → ∃ f ∈ s.els, lead f = 0

section
variable {C : Cfg n} [hp : Fact C.p.Prime] {I : Ideal (MvPolynomial (Fin n) (ZMod C.p))} {s s' : St n}

theorem winv_of_inv {J : Ideal (MvPolynomial (Fin n) (ZMod C.p))} (h : Inv C J s) (hJ : J ≤ I) : WInv C I s :=
  ⟨h.ok, h.ld, h.lo, pinv_congr (fun _ _ => rfl) (fun _ _ _ => trivial) h.pinv, fun f hf => hJ (by
    rw [← h.ideal]; exact Ideal.subset_span ⟨f, hf, rfl⟩), h.const⟩

/-- Elements are added, pairs may be left out. -/
theorem winv_add (hC : CfgOk C) (h : WInv C I s) {ps : List (Pair n)} (hps : ∀ q ∈ ps, q ∈ s.pst.ps) {N : List (Poly n)}
    (hN : ∀ f ∈ N, PolyOk C.ord C.p f ∧ toMv C.p f ∈ I) {b : Bool}
    (hb : b = true → ∃ f ∈ s.els ++ N, lead f = 0) :
    WInv C I (St.mk (s.els ++ N) (updateBasis C.ord.nev C.ord.mo0 C.srtUpd (elsOf C.ord.nev (s.els ++ N)) N.length
      { s.pst with ps := ps }) b) := by
  have hE : ∀ i < s.pst.ld, (elsOf C.ord.nev s.els).lm i = (elsOf C.ord.nev (s.els ++ N)).lm i := by
    intro i hi
    rw [h.ld] at hi
    simp only [elsOf]
    rw [getD_append_left _ _ hi]
  have h1 := pinv_congr (D' := fun _ _ => True) hE (fun _ _ _ => trivial) h.pinv
  have hpinv : PInv (elsOf C.ord.nev (s.els ++ N)) (fun _ _ => True) { s.pst with ps := ps } :=
    ⟨fun q hq => h1.pair q (hps q hq), h1.red, h1.fresh, h1.lmps, h1.lo, h1.nonred,
      fun i j _ _ => .base (Or.inr trivial)⟩
  obtain ⟨h1, h2, h3⟩ := updateBasis_inv (nev := C.ord.nev) (drl := C.ord.mo0) hC.upd
    (fun i => polyDeg_nonneg _ _) hpinv N.length
  refine ⟨?_, ?_, ?_, h1, ?_, hb⟩
  · intro f hf
    rcases List.mem_append.mp hf with hf | hf
    · exact h.ok f hf
    · exact (hN f hf).1
  · simp only; rw [h2, List.length_append]; simp only; rw [h.ld]
  · simp only; rw [h3, List.length_append]; simp only; rw [h.ld]
  · intro f hf
    rcases List.mem_append.mp hf with hf | hf
    · exact h.mem f hf
    · exact (hN f hf).2

theorem WInv.lmps_lt (h : WInv C I s) : ∀ k ∈ s.pst.lmps, k < s.els.length := fun k hk => by
  have := h.pinv.lmps k hk
  rw [h.lo] at this
  exact this

theorem WInv.reducers (h : WInv C I s) {i : Nat} (hi : i < s.els.length) :
    ∃ k ∈ s.pst.lmps, lead (s.els.getD k []) ≤ lead (s.els.getD i []) := by
  by_cases hr : s.pst.red i = true
  · obtain ⟨k, hk, h1, h2⟩ := h.pinv.red i (by rw [h.ld]; exact hi) hr
    exact ⟨k, h.pinv.nonred k (by rw [h.lo, ← h.ld]; exact hk) h1, h2⟩
  · exact ⟨i, h.pinv.nonred i (by rw [h.lo]; exact hi) (by simpa using hr), le_rfl⟩

theorem wselSym_inv (hC : CfgOk C) (h : WInv C I s) (stale : Mon n) : SymInv s.els (selSym C stale s) := by
  have hemp : SymInv s.els (⟨[], [], [], []⟩ : Sym n) := by
    refine ⟨?_, ?_, ?_, ?_, ?_⟩ <;> simp
  exact (addPairs_inv h.ok _ (select C.mnsel stale (C.srtSel s.pst.ps)).1 ⟨[], [], [], []⟩ le_rfl
    (select_grouped hC stale _) (by
      intro q hq
      have hq' : q ∈ s.pst.ps := (hC.sel _).mem_iff.mp ((List.take_prefix _ _).subset hq)
      obtain ⟨h1, h2, h3, _⟩ := h.pinv.pair q hq'
      rw [h.ld] at h2
      exact ⟨by omega, h2, h3⟩) hemp (by simp)).1

/-- A round of the test: the new elements lie in the ideal, their leading monomials are not divisible by
others. -/
theorem pround_winv (hC : CfgOk C) (hp15 : 2 ^ 15 ≤ C.p) (h : WInv C I s) (hr : PRound C s s') :
    WInv C I s' ∧ ∃ stale N, s' = next C stale s N ∧ ∀ f ∈ N, ∀ g ∈ s.els, ¬ lead g ≤ lead f := by
  obtain ⟨stale, fuel, sy, hcm, rrs, trs, R, hd, hsym, hcol, hrr, hsrt, htr, hla⟩ := hr
  have h1 := wselSym_inv hC h stale
  obtain ⟨a1, a2, a3, a4⟩ := symLoop_inv h.ok h.lmps_lt _ _ _ _ (loopInv_start h.ok h1) hsym
  have hM : MatInv C.ord C.p s.els sy hcm rrs trs := ⟨h.ok, a1, hcol, hrr, hsrt, htr⟩
  have hpre := hM.pre
  have hPP : ProbPre C.p (nclOf sy) hcm.length (pivs0 s.els hcm rrs) (trs.map fun r => convRow hcm (rowPoly s.els r)) := by
    refine ⟨hpre.left, hpre.piv, hpre.known, ?_⟩
    intro r hr
    obtain ⟨x, hx, rfl⟩ := List.mem_map.mp hr
    obtain ⟨_, b2, b3⟩ := hM.row_cols (Or.inr (htr.mem_iff.mp hx))
    exact ⟨b3, fun t ht => ⟨(b2 t ht).2.1, (b2 t ht).2.2⟩⟩
  obtain ⟨c1, c2⟩ := pla_facts hC.prime hp15 hC.p31 hPP hla
  have hnd := cols_nodup hcol
  have hN : ∀ f ∈ newPolys hcm R, (PolyOk C.ord C.p f ∧ toMv C.p f ∈ I) ∧ ∀ g ∈ s.els, ¬ lead g ≤ lead f := by
    intro f hf
    obtain ⟨d1, c, r, d2, d3, d4, d5, d6, d7⟩ := newPolys_ok (O := C.ord) c1 (fun a b ha hab hb => by
      have la : a < hcm.length := by omega
      rw [List.getD_eq_getElem _ _ hb, List.getD_eq_getElem _ _ la]
      rcases List.pairwise_iff_getElem.mp hcol.2 a b la hb hab with h5 | h5
      · exact absurd ((mark_iff_lt hcol la).mp h5.1) (by omega)
      · exact h5.2) hf
    refine ⟨⟨d1, ?_⟩, ?_⟩
    · rw [d7]
      have hin : rvec C.p r ∈ inSpan C.p (pivs0 s.els hcm rrs) (trs.map fun r => convRow hcm (rowPoly s.els r)) :=
        c2 (Submodule.subset_span (Or.inr ⟨c, r, d2, rfl⟩))
      have hrow : ∀ x, x ∈ sy.rr ∨ x ∈ sy.tr → phi C.p hcm (rvec C.p (convRow hcm (rowPoly s.els x))) ∈ I := by
        intro x hx
        obtain ⟨_, b2, _⟩ := hM.row_cols hx
        rw [phi_rvec _ _ _ fun t ht => (b2 t ht).2.1, backRow_convRow _ _ (hM.row hx).2.2, toMv_rowPoly]
        exact Ideal.mul_mem_left _ _ (h.mem _ (getD_mem (a1.rows x hx).1))
      have hle : inSpan C.p (pivs0 s.els hcm rrs) (trs.map fun r => convRow hcm (rowPoly s.els r)) ≤
          (I.restrictScalars (ZMod C.p)).comap (phi C.p hcm) := by
        apply Submodule.span_le.mpr
        rintro v (⟨j, q, hj, rfl⟩ | ⟨q, hq, rfl⟩)
        · simp only [pivs0, Option.map_eq_some_iff] at hj
          obtain ⟨x, hx, rfl⟩ := hj
          exact hrow x (Or.inl (hrr.mem_iff.mp (List.mem_of_getElem? hx)))
        · obtain ⟨x, hx, rfl⟩ := List.mem_map.mp hq
          exact hrow x (Or.inr (htr.mem_iff.mp hx))
      exact hle hin
    · intro g hg hle
      obtain ⟨i, hi, rfl⟩ := List.mem_iff_getElem.mp hg
      obtain ⟨k, hk, hk'⟩ := h.reducers hi
      rw [List.getD_eq_getElem s.els _ hi] at hk'
      have hm : lead f ∈ sy.ms := by
        rw [← hcol.1.mem_iff, d5, List.getD_eq_getElem _ _ d4]
        exact List.getElem_mem d4
      rcases a4 _ hm with h5 | h5
      · rw [d5, List.getD_eq_getElem _ _ d4] at h5
        exact absurd ((mark_iff_lt hcol d4).mp h5) (by omega)
      · exact h5 k hk (hk'.trans hle)
  refine ⟨?_, stale, _, rfl, fun f hf => (hN f hf).2⟩
  refine winv_add hC h (fun q hq => (hC.sel s.pst.ps).mem_iff.mp ((List.drop_suffix _ _).subset hq))
    (fun f hf => (hN f hf).1) ?_
  intro hc
  simp only [Bool.or_eq_true, List.any_eq_true, decide_eq_true_eq] at hc
  rcases hc with hc | ⟨f, hf, hd⟩
  · obtain ⟨f, hf, h0⟩ := h.const hc
    exact ⟨f, List.mem_append_left _ hf, h0⟩
  · exact ⟨f, List.mem_append_right _ hf, lead_zero_of_deg _ (hN f hf).1.1 hd⟩

theorem ploop_winv (hC : CfgOk C) (hp15 : 2 ^ 15 ≤ C.p) (hl : PLoop C s s') : WInv C I s → WInv C I s' := by
  induction hl with
  | stop s _ => exact id
  | const s s' hr _ => exact fun h => (pround_winv hC hp15 h hr).1
  | step s s' s'' hr _ _ ih => exact fun h => ih (pround_winv hC hp15 h hr).1

/-- A monic element with leading monomial 1 is 1. -/
theorem toMv_one {f : Poly n} (hf : PolyOk C.ord C.p f) (h0 : lead f = 0) : toMv C.p f = 1 := by
  have h1 := hf.degree
  rw [h0] at h1
  have : fs (0 : Mon n) = 0 := by ext i; rfl
  rw [this] at h1
  have h2 := hf.monic
  have h3 : toMv C.p f = MvPolynomial.C (C.ord.mo.leadingCoeff (toMv C.p f)) := C.ord.mo.degree_eq_zero_iff.mp h1
  have h2' : C.ord.mo.leadingCoeff (toMv C.p f) = 1 := h2
  rw [h3, h2', map_one]

/-- If the test with a monic element says yes, the ideal of the basis and the element generate 1. -/
theorem test_one (hC : CfgOk C) (hp15 : 2 ^ 15 ≤ C.p) {J : Ideal (MvPolynomial (Fin n) (ZMod C.p))} (h : Inv C J s)
    (hs : s.const = false) {g : Poly n} (hg : PolyOk C.ord C.p g) {e : St n} (ht : TestRun C s g e) (he : e.const = true) :
    (1 : MvPolynomial (Fin n) (ZMod C.p)) ∈ J ⊔ Ideal.span {toMv C.p g} := by
  have h0 : WInv C (J ⊔ Ideal.span {toMv C.p g}) s := winv_of_inv h le_sup_left
  have h1 := winv_add hC h0 (ps := s.pst.ps) (fun _ h => h) (N := [g]) (b := s.const) (by
    intro f hf
    rw [List.mem_singleton] at hf
    subst hf
    exact ⟨hg, Submodule.mem_sup_right (Ideal.subset_span rfl)⟩) (by rw [hs]; simp)
  have h2 := ploop_winv hC hp15 ht h1
  obtain ⟨f, hf, hf0⟩ := h2.const he
  have := h2.mem f hf
  rwa [toMv_one (h2.ok f hf) hf0] at this

end

/-- An ideal which together with (a multiple of) `f` generates 1 is saturated. -/
theorem saturated_of_one {K : Type*} [Field K] {I J : Ideal (MvPolynomial (Fin n) K)} {f g a : MvPolynomial (Fin n) K}
    (hb : Between I f J) (hg : g - a * f ∈ J) (h1 : (1 : MvPolynomial (Fin n) K) ∈ J ⊔ Ideal.span {g}) :
    IsSaturation I f J := by
  intro h
  refine ⟨hb.2 h, ?_⟩
  rintro ⟨k, hk'⟩
  have hk := hb.1 _ hk'
  clear hk'
  have key : ∃ b, 1 - b * f ∈ J := by
    obtain ⟨x, hx, y, hy, hxy⟩ := Submodule.mem_sup.mp h1
    obtain ⟨c, rfl⟩ := Ideal.mem_span_singleton'.mp hy
    refine ⟨c * a, ?_⟩
    have : 1 - c * a * f = x + c * (g - a * f) := by rw [← hxy]; ring
    rw [this]
    exact Ideal.add_mem _ hx (Ideal.mul_mem_left _ _ hg)
  obtain ⟨b, hb1⟩ := key
  induction k with
  | zero => simpa using hk
  | succ k ih =>
    apply ih
    have : f ^ k * h = b * (f ^ (k + 1) * h) + f ^ k * h * (1 - b * f) := by ring
    rw [this]
    exact Ideal.add_mem _ (Ideal.mul_mem_left _ _ hk) (Ideal.mul_mem_left _ _ hb1)

/-! ### Kernels on Gröbner bases -/

section
variable {C : Cfg n} [hp : Fact C.p.Prime] {I J : Ideal (MvPolynomial (Fin n) (ZMod C.p))}
  {f : MvPolynomial (Fin n) (ZMod C.p)} {s s' : SSt n}

/-- A polynomial with monomials of the list comes from a vector. -/
theorem phi_surj {p : Nat} {hcmm : List (Mon n)} (hn : hcmm.Nodup) {h : MvPolynomial (Fin n) (ZMod p)}
    (hh : ∀ u ∈ h.support, ∃ m ∈ hcmm, u = fs m) :
    ∃ c : Nat → ZMod p, (∀ k, hcmm.length ≤ k → c k = 0) ∧ phi p hcmm c = h := by
  refine ⟨fun k => if k < hcmm.length then coeff (fs (hcmm.getD k 0)) h else 0, fun k hk => if_neg (by omega), ?_⟩
  ext u
  by_cases hu : ∃ m ∈ hcmm, u = fs m
  · obtain ⟨m, hm, rfl⟩ := hu
    have hlt := List.idxOf_lt_length_iff.mpr hm
    have e : hcmm.getD (hcmm.idxOf m) 0 = m := by rw [List.getD_eq_getElem _ _ hlt, List.getElem_idxOf]
    have := phi_coeff_sat p hn (fun k => if k < hcmm.length then coeff (fs (hcmm.getD k 0)) h else 0) hlt
    rw [e] at this
    rw [this, if_pos hlt]
  · have h1 : u ∉ h.support := fun h' => hu (hh u h')
    have h2 : u ∉ (phi p hcmm fun k => if k < hcmm.length then coeff (fs (hcmm.getD k 0)) h else 0).support :=
      fun h' => hu (phi_support _ _ _ h')
    rw [notMem_support_iff.mp h1, notMem_support_iff.mp h2]

/-- On a Gröbner basis the kernel consists of all combinations of the multipliers which multiply `f` into
the ideal. -/
theorem stage_kernel (hC : CfgOk C) (h : SInv C I f J s) (hd : done s.st) {ii : Nat} {hcmm : List (Mon n)} {K : List Row}
    (hs : Stage C ii s (some (hcmm, K)) s') :
    hcmm.Nodup ∧ (∀ u, u ∈ hcmm ↔ stdMon s.st.els s.st.pst.lmps u = true ∧ tdeg u ≤ ii) ∧
    (∀ r ∈ K, r ≠ [] ∧ SRow C.p hcmm.length r) ∧
    ∀ q : MvPolynomial (Fin n) (ZMod C.p), (∀ u ∈ q.support, ∃ m ∈ hcmm, u = fs m) →
      (q * f ∈ J ↔ q ∈ (kerSpan C.p K).map (phi C.p hcmm)) := by
  obtain ⟨qb, sat1, N, hq, hu, hk⟩ : ∃ qb sat1 N, quotBasis (stdMon s.st.els s.st.pst.lmps) ii = some qb ∧
      updMult qb s.sat = some sat1 ∧ Kernel C s.st.els s.st.pst.lmps sat1 N hcmm K := by
    rcases hs with _ | ⟨qb, sat1, N, _, hq, hu, hk⟩ | ⟨qb, sat1, N, _, _, R, hq, hu, hk, _, hR⟩
    · exact ⟨qb, sat1, N, hq, hu, hk⟩
    · exact ⟨qb, sat1, N, hq, hu, hk⟩
  obtain ⟨m1, m2, m3⟩ := h.mults hq hu
  obtain ⟨k1, k2, k3, Ψ, k4⟩ := kernel_facts hC.p31 h.inv.ok h.inv.lmps_lt h.inv.redSet_le m1 m3 hk
  have hnd : hcmm.Nodup := k2.nodup_iff.mpr m1
  refine ⟨hnd, fun u => by rw [k2.mem_iff, m2], k4.rows, ?_⟩
  intro q hq
  obtain ⟨c, hc, rfl⟩ := phi_surj hnd hq
  have hcong := k4.congr c
  constructor
  · intro h1
    refine ⟨c, ?_, rfl⟩
    refine (k4.ker c hc).mp (h.inv.irr_zero hd ?_ (k4.irr c))
    have := Ideal.add_mem _ hcong h1
    rwa [sub_add_cancel] at this
  · rintro ⟨c', hc', he⟩
    have hc0 : ∀ k, hcmm.length ≤ k → c' k = 0 := by
      intro k hk
      have hle : kerSpan C.p K ≤ LinearMap.ker (LinearMap.proj (R := ZMod C.p) (φ := fun _ : Nat => ZMod C.p) k) := by
        apply Submodule.span_le.mpr
        rintro v ⟨r, hr, rfl⟩
        simp only [SetLike.mem_coe, LinearMap.mem_ker, LinearMap.proj_apply]
        exact rvec_zero _ _ _ fun t ht => by have := ((k4.rows r hr).2.bound t ht).1; omega
      exact hle hc'
    have h0 := (k4.ker c' hc0).mpr hc'
    have := k4.congr c'
    rw [h0, zero_sub, he] at this
    exact neg_mem_iff.mp this

/-- An empty kernel for all standard monomials: the ideal is saturated. -/
theorem saturated_of_empty (hC : CfgOk C) (h : SInv C I f J s) (hd : done s.st) {ii : Nat} {hcmm : List (Mon n)}
    (hs : Stage C ii s (some (hcmm, [])) s')
    (hall : ∀ u, stdMon s.st.els s.st.pst.lmps u = true → tdeg u ≤ ii) : IsSaturation I f J := by
  obtain ⟨_, h2, _, h3⟩ := stage_kernel hC h hd hs
  have key : ∀ q, q * f ∈ J → q ∈ J := by
    intro q hq
    obtain ⟨a, r, h4, _, h5⟩ := C.ord.mo.div_set (B := redSet C.p s.st.els s.st.pst.lmps) (by
      rintro b ⟨k, hk, rfl⟩
      have : C.ord.mo.leadingCoeff (toMv C.p (s.st.els.getD k [])) = 1 := (h.inv.ok _ (getD_mem (h.inv.lmps_lt k hk))).monic
      rw [this]
      exact isUnit_one) q
    have hmem : q - r ∈ J := by
      rw [h4, add_sub_cancel_right]
      apply h.inv.redSet_le
      exact Submodule.sum_mem _ fun b _ => Ideal.mul_mem_left _ _ (Ideal.subset_span b.2)
    have hr : r * f ∈ J := by
      have : r * f = q * f - (q - r) * f := by ring
      rw [this]
      exact Ideal.sub_mem _ hq (Ideal.mul_mem_right _ _ hmem)
    have hstd : ∀ u ∈ r.support, ∃ m ∈ hcmm, u = fs m := by
      intro u hu
      obtain ⟨m, rfl⟩ := fs_surj u
      refine ⟨m, ?_, rfl⟩
      have : stdMon s.st.els s.st.pst.lmps m = true := by
        unfold stdMon
        rw [List.all_eq_true]
        intro k hk
        simp only [Bool.not_eq_true', decide_eq_false_iff_not]
        intro hle
        refine h5 _ hu _ ⟨k, hk, rfl⟩ ?_
        rw [(h.inv.ok _ (getD_mem (h.inv.lmps_lt k hk))).degree]
        exact fs_le.mpr hle
      exact (h2 m).mpr ⟨this, hall m this⟩
    have h0 := (h3 r hstd).mp hr
    have : r = 0 := by
      obtain ⟨c, hc, rfl⟩ := h0
      have : c = 0 := by simpa [kerSpan] using hc
      rw [this, map_zero]
    rw [this, sub_zero] at hmem
    exact hmem
  intro q
  refine ⟨h.btw.2 q, ?_⟩
  rintro ⟨k, hk'⟩
  have hk := h.btw.1 _ hk'
  clear hk'
  induction k with
  | zero => simpa using hk
  | succ k ih =>
    apply ih
    apply key
    have : f ^ k * q * f = f ^ (k + 1) * q := by ring
    rw [this]
    exact hk

/-! ### Termination -/

/-- A step keeps everything or adds an element with a new leading monomial. -/
theorem stage_grow (hC : CfgOk C) (hp15 : 2 ^ 15 ≤ C.p) {ii : Nat} {k : Option (List (Mon n) × List Row)}
    (h : SInv C I f J s) (hs : Stage C ii s k s') :
    leadIdeal C.p s.st.els < leadIdeal C.p s'.st.els ∨ (s'.st.els = s.st.els ∧ s'.st.pst.ps = s.st.pst.ps) := by
  rcases hs with ⟨qb, sat1, fuel, sy, hq, hu, _, _⟩ | ⟨qb, sat1, N, hcmm, hq, hu, hk⟩ |
    ⟨qb, sat1, N, hcmm, K, R, hq, hu, hk, _, hR⟩
  · exact Or.inr ⟨rfl, rfl⟩
  · exact Or.inr ⟨rfl, rfl⟩
  · obtain ⟨m1, m2, m3⟩ := h.mults hq hu
    obtain ⟨k1, k2, k3, Ψ, k4⟩ := kernel_facts hC.p31 h.inv.ok h.inv.lmps_lt h.inv.redSet_le m1 m3 hk
    have hlen : sat1.length = hcmm.length := by rw [k2.length_eq, List.length_map]
    rw [hlen] at hR
    have hnew := fun g hg => kernel_new hp15 hC.p31 k4 k3 hR (g := g) hg
    by_cases hN : newPolys hcmm R = []
    · right
      simp only
      rw [hN]
      exact ⟨by simp [addEls], by simp [addEls, updateBasis]⟩
    · left
      obtain ⟨g, hg⟩ := List.exists_mem_of_ne_nil _ hN
      refine leadIdeal_lt hg ?_
      intro q hq hle
      obtain ⟨i, hi, rfl⟩ := List.mem_iff_getElem.mp hq
      obtain ⟨k, hk, hk'⟩ := h.inv.reducers hi
      rw [List.getD_eq_getElem s.st.els _ hi] at hk'
      have := ((m2 _).mp (k2.mem_iff.mp (hnew g hg).2.1)).1
      unfold stdMon at this
      rw [List.all_eq_true] at this
      have := this k hk
      simp only [Bool.not_eq_true', decide_eq_false_iff_not] at this
      exact this (hk'.trans hle)

theorem stages_grow (hC : CfgOk C) (hp15 : 2 ^ 15 ≤ C.p) {sd ii : Nat} (hs : Stages C sd ii s s') :
    ∀ {J}, SInv C I f J s →
    leadIdeal C.p s.st.els < leadIdeal C.p s'.st.els ∨ (s'.st.els = s.st.els ∧ s'.st.pst.ps = s.st.pst.ps) := by
  induction hs with
  | done ii s _ => exact fun h => Or.inr ⟨rfl, rfl⟩
  | grow ii s s' k _ hst _ =>
    intro J h
    have := stage_grow hC hp15 h hst
    exact this
  | next ii s s' s'' k _ hst _ _ ih =>
    intro J h
    obtain ⟨J', _, h2⟩ := stage_inv hC hp15 h hst
    rcases stage_grow hC hp15 h hst with h3 | ⟨h3, h3'⟩ <;> rcases ih h2 with h4 | ⟨h4, h4'⟩
    · exact Or.inl (h3.trans h4)
    · left; rw [h4]; exact h3
    · left; rw [← h3]; exact h4
    · exact Or.inr ⟨h4.trans h3, h4'.trans h3'⟩

theorem fstep_meas (hC : CfgOk C) (h : SInv C I f J s) (hs : FStep C s s') :
    Prod.Lex (· > ·) (· < ·) (meas C.p s'.st) (meas C.p s.st) := by
  obtain ⟨t, hr⟩ := hs
  have := round_meas hC (inv_const h.inv false (by simp)) hr
  exact this

theorem sturn_meas (hC : CfgOk C) (hp15 : 2 ^ 15 ≤ C.p) (h : SInv C I f J s) (hs : STurn C s s') :
    Prod.Lex (· > ·) (· < ·) (meas C.p s'.st) (meas C.p s.st) := by
  have key : ∀ t t' : SSt n, meas C.p t.st = meas C.p t'.st → Prod.Lex (· > ·) (· < ·) (meas C.p t'.st) (meas C.p s.st) →
      (leadIdeal C.p t.st.els < leadIdeal C.p s'.st.els ∨ (s'.st.els = t.st.els ∧ s'.st.pst.ps = t.st.pst.ps)) →
      Prod.Lex (· > ·) (· < ·) (meas C.p s'.st) (meas C.p s.st) := by
    intro t t' he hm hg
    rw [← he] at hm
    rcases hg with hg | ⟨h1, h2⟩
    · unfold meas at hm ⊢
      apply Prod.Lex.left
      rw [Prod.lex_def] at hm
      rcases hm with h1 | ⟨h1, _⟩
      · exact lt_trans h1 hg
      · simp only at h1; rw [← h1]; exact hg
    · have : meas C.p s'.st = meas C.p t.st := by unfold meas; rw [h1, h2]
      rw [this]; exact hm
  rcases hs with ⟨_, m, g, _, hf, _⟩ | ⟨t, _, m, g, e, _, hf, _, _, _, _, _, _, hst⟩ | ⟨t, _, m, g, _, hf, _, _, _, _, hst⟩
  · exact fstep_meas hC h hf
  · have h1 := afterTest_inv (fstep_inv hC h hf).1 e
    exact key (afterTest t e) t rfl (fstep_meas hC h hf) (stages_grow hC hp15 hst h1)
  · exact key t t rfl (fstep_meas hC h hf) (stages_grow hC hp15 hst (fstep_inv hC h hf).1)

/-- The main loop makes finitely many turns. -/
theorem sturn_finite (hC : CfgOk C) (hp15 : 2 ^ 15 ≤ C.p) (σ : Nat → SSt n) {J} (h0 : SInv C I f J (σ 0)) :
    ¬ ∀ i, STurn C (σ i) (σ (i + 1)) := by
  intro hr
  have hinv : ∀ i, ∃ J, SInv C I f J (σ i) := by
    intro i
    induction i with
    | zero => exact ⟨J, h0⟩
    | succ i ih =>
      obtain ⟨J, hJ⟩ := ih
      obtain ⟨J', _, h2⟩ := sturn_inv hC hp15 hJ (hr i)
      exact ⟨J', h2⟩
  have hwf := InvImage.wf (fun s : SSt n => meas (n := n) C.p s.st) (meas_wf C.p)
  obtain ⟨x, ⟨i, rfl⟩, hmin⟩ := WellFounded.has_min hwf (Set.range σ) ⟨σ 0, 0, rfl⟩
  obtain ⟨J, hJ⟩ := hinv i
  exact hmin (σ (i + 1)) ⟨i + 1, rfl⟩ (sturn_meas hC hp15 hJ (hr i))

theorem pround_meas {s s' : St n} (hC : CfgOk C) (hp15 : 2 ^ 15 ≤ C.p) (h : WInv C I s) (hr : PRound C s s') :
    Prod.Lex (· > ·) (· < ·) (meas C.p s') (meas C.p s) := by
  have hps : s.pst.ps ≠ [] := by cases hr; assumption
  obtain ⟨_, stale, N, rfl, hN⟩ := pround_winv hC hp15 h hr
  by_cases hN0 : N = []
  · subst hN0
    have e1 : (next C stale s []).els = s.els := by simp [next]
    have e2 : (next C stale s []).pst.ps = (select C.mnsel stale (C.srtSel s.pst.ps)).2 := by
      simp [next, updateBasis]
    unfold meas
    rw [e1, e2]
    exact Prod.Lex.right _ (select_pos hC stale hps)
  · obtain ⟨f, hf⟩ := List.exists_mem_of_ne_nil _ hN0
    exact Prod.Lex.left _ _ (leadIdeal_lt hf (hN f hf))

/-- The loop of the test makes finitely many rounds. -/
theorem pround_finite (hC : CfgOk C) (hp15 : 2 ^ 15 ≤ C.p) (σ : Nat → St n) (h0 : WInv C I (σ 0)) :
    ¬ ∀ i, PRound C (σ i) (σ (i + 1)) := by
  intro hr
  have hinv : ∀ i, WInv C I (σ i) := by
    intro i
    induction i with
    | zero => exact h0
    | succ i ih => exact (pround_winv hC hp15 ih (hr i)).1
  have hwf := InvImage.wf (meas (n := n) C.p) (meas_wf C.p)
  obtain ⟨x, ⟨i, rfl⟩, hmin⟩ := WellFounded.has_min hwf (Set.range σ) ⟨σ 0, 0, rfl⟩
  exact hmin (σ (i + 1)) ⟨i + 1, rfl⟩ (pround_meas hC hp15 (hinv i) (hr i))

end

end Verif.F4
