import Verif.SaturateKernel
import Verif.Spec.Saturation

/-! Invariant of F4 with saturation. -/

namespace Verif.F4

open Verif.Pairs Verif.Spec Verif.RowReduce Verif.Normalize Verif.Echelon Verif.Props Verif.Orders Verif.Groebner
open Verif.SatKernel Verif.ProbLA MvPolynomial

variable {n : Nat}

/-! ### Saturations -/

theorem InSat.of_mem {K : Type*} [Field K] {I : Ideal (MvPolynomial (Fin n) K)} {f h : MvPolynomial (Fin n) K} (hh : h ∈ I) :
    InSat I f h := ⟨0, by simpa using hh⟩

theorem InSat.add {K : Type*} [Field K] {I : Ideal (MvPolynomial (Fin n) K)} {f a b : MvPolynomial (Fin n) K}
    (ha : InSat I f a) (hb : InSat I f b) : InSat I f (a + b) := by
  obtain ⟨k, hk⟩ := ha
  obtain ⟨l, hl⟩ := hb
  refine ⟨k + l, ?_⟩
  have : f ^ (k + l) * (a + b) = f ^ l * (f ^ k * a) + f ^ k * (f ^ l * b) := by ring
  rw [this]
  exact Ideal.add_mem _ (Ideal.mul_mem_left _ _ hk) (Ideal.mul_mem_left _ _ hl)

theorem InSat.mul {K : Type*} [Field K] {I : Ideal (MvPolynomial (Fin n) K)} {f b : MvPolynomial (Fin n) K}
    (a : MvPolynomial (Fin n) K) (hb : InSat I f b) : InSat I f (a * b) := by
  obtain ⟨l, hl⟩ := hb
  refine ⟨l, ?_⟩
  have : f ^ l * (a * b) = a * (f ^ l * b) := by ring
  rw [this]
  exact Ideal.mul_mem_left _ _ hl

/-- The saturation as an ideal. -/
def satIdeal {K : Type*} [Field K] (I : Ideal (MvPolynomial (Fin n) K)) (f : MvPolynomial (Fin n) K) :
    Ideal (MvPolynomial (Fin n) K) where
  carrier := { h | InSat I f h }
  add_mem' := InSat.add
  zero_mem' := InSat.of_mem (Ideal.zero_mem _)
  smul_mem' a _ h := InSat.mul a h

theorem mem_satIdeal {K : Type*} [Field K] {I : Ideal (MvPolynomial (Fin n) K)} {f h : MvPolynomial (Fin n) K} :
    h ∈ satIdeal I f ↔ InSat I f h := Iff.rfl

/-- Elements with a multiple in `J` may be added. -/
theorem between_sup {K : Type*} [Field K] {I J : Ideal (MvPolynomial (Fin n) K)} {f : MvPolynomial (Fin n) K}
    (h : Between I f J) {S : Set (MvPolynomial (Fin n) K)} (hS : ∀ g ∈ S, g * f ∈ J) :
    Between I f (J ⊔ Ideal.span S) := by
  refine ⟨fun x hx => Submodule.mem_sup_left (h.1 x hx), ?_⟩
  have : J ⊔ Ideal.span S ≤ satIdeal I f := by
    refine sup_le (fun x hx => h.2 x hx) (Ideal.span_le.mpr fun g hg => ?_)
    obtain ⟨k, hk⟩ := h.2 _ (hS g hg)
    refine ⟨k + 1, ?_⟩
    have : f ^ (k + 1) * g = f ^ k * (g * f) := by ring
    rw [this]
    exact hk
  exact fun x hx => this hx

/-! ### Results of the probabilistic linear algebra -/

theorem pla_facts {p ncl ncols : Nat} (hp : p.Prime) (hp15 : 2 ^ 15 ≤ p) (hp31 : p < 2 ^ 31)
    {pivs : Nat → Option Row} {rows : List Row} {R : Nat → Option Row} (hpre : ProbPre p ncl ncols pivs rows)
    (h : PLaResult p ncl ncols pivs rows R) : ReducedShape p ncl ncols R ∧ outSpan p pivs R ≤ inSpan p pivs rows := by
  obtain ⟨P, hP, m, c, he, hf, hR⟩ := h
  rcases hP with rfl | ⟨h18, h27, rfl⟩
  · obtain ⟨R', e1, e2, e3⟩ := (C68_probabilistic_31 p ncl ncols hp hp15 hp31 pivs rows hpre).sound m c he hf
    rw [hR] at e1
    obtain rfl := Option.some.inj e1
    exact ⟨e2, e3⟩
  · obtain ⟨R', e1, e2, e3⟩ := (C68_probabilistic_17 p ncl ncols hp hp15 h18 h27 pivs rows hpre).sound m c he hf
    rw [hR] at e1
    obtain rfl := Option.some.inj e1
    exact ⟨e2, e3⟩

/-- New elements from reduced rows. -/
theorem newPolys_ok {O : OKind} {p ncl : Nat} {hcm : List (Mon n)} {R : Nat → Option Row}
    (hR : ReducedShape p ncl hcm.length R)
    (hs : ∀ a b, ncl ≤ a → a < b → b < hcm.length → O.lt (hcm.getD b 0) (hcm.getD a 0)) {f : Poly n}
    (hf : f ∈ newPolys hcm R) :
    PolyOk O p f ∧ ∃ c r, R c = some r ∧ ncl ≤ c ∧ c < hcm.length ∧ lead f = hcm.getD c 0 ∧ f = backRow hcm r ∧
      toMv p f = phi p hcm (rvec p r) := by
  obtain ⟨c, r, hc, hr, rfl⟩ := mem_newPolys.mp hf
  obtain ⟨h1, ⟨r', h2⟩, h3, h4⟩ := hR c r hr
  have hlead : lead (backRow hcm r) = hcm.getD c 0 := by rw [h2]; rfl
  refine ⟨⟨⟨backRow hcm r', ?_⟩, ?_, ?_⟩, c, r, hr, h1, hc, hlead, rfl, (phi_rvec _ _ _ fun t ht => (h4 t ht).1).symm⟩
  · rw [hlead, h2]
    rfl
  · have : (backRow hcm r).map Prod.fst = (r.map Prod.fst).map fun c => hcm.getD c 0 := by
      simp [backRow, Function.comp_def]
    rw [this, List.pairwise_map]
    have hge : ∀ a ∈ r.map Prod.fst, c ≤ a := by
      rw [h2, List.map_cons] at h3 ⊢
      rw [List.pairwise_cons] at h3
      intro a ha
      rcases List.mem_cons.mp ha with rfl | ha
      · exact le_rfl
      · exact (h3.1 a ha).le
    refine List.Pairwise.imp_of_mem ?_ h3
    intro a b ha hb hab
    have lb : b < hcm.length := by
      obtain ⟨t, ht, rfl⟩ := List.mem_map.mp hb
      exact (h4 t ht).1
    exact hs a b (h1.trans (hge a ha)) hab lb
  · intro t ht
    obtain ⟨x, hx, rfl⟩ := List.mem_map.mp ht
    exact ⟨(h4 x hx).2.1, (h4 x hx).2.2.1⟩

/-! ### Adding elements -/

section
variable {C : Cfg n} [Fact C.p.Prime] {J : Ideal (MvPolynomial (Fin n) (ZMod C.p))} {s : St n}

theorem inv_add (hC : CfgOk C) (h : Inv C J s) {N : List (Poly n)} (hN : ∀ f ∈ N, PolyOk C.ord C.p f) :
    Inv C (J ⊔ Ideal.span { g | ∃ f ∈ N, g = toMv C.p f }) (addEls C s N) := by
  have hpinv : PInv (elsOf C.ord.nev (s.els ++ N)) (fun i j => i < (s.els ++ N).length ∧ j < (s.els ++ N).length ∧
      Rep C.ord.mo (idx (s.els ++ N)) (polys C.p (s.els ++ N)) i j) s.pst := by
    have hE : ∀ i < s.pst.ld, (elsOf C.ord.nev s.els).lm i = (elsOf C.ord.nev (s.els ++ N)).lm i := by
      intro i hi
      rw [h.ld] at hi
      simp only [elsOf]
      rw [getD_append_left _ _ hi]
    refine pinv_congr hE ?_ h.pinv
    rintro i j ⟨hi, hj, hrep⟩
    rw [List.length_append]
    exact ⟨by omega, by omega, rep_append _ _ hi hj hrep⟩
  obtain ⟨h1, h2, h3⟩ := updateBasis_inv (nev := C.ord.nev) (drl := C.ord.mo0) hC.upd
    (fun i => polyDeg_nonneg _ _) hpinv N.length
  refine ⟨?_, ?_, ?_, h1, ?_, ?_, ?_, ?_⟩
  · intro f hf
    rcases List.mem_append.mp hf with hf | hf
    · exact h.ok f hf
    · exact hN f hf
  · simp only [addEls]; rw [h2, List.length_append, h.ld]
  · simp only [addEls]; rw [h3, List.length_append, h.ld]
  · intro h0
    simp only [addEls]
    rw [h0]
    exact updateBasis_deg hC.upd (h.deg h0) _
  · simp only [addEls]
    exact updateBasis_nodup h.nodup h.pinv.lmps _
  · rw [← h.ideal, ← Ideal.span_union]
    congr 1
    ext g
    simp only [addEls, List.mem_append, Set.mem_union, Set.mem_ofPred_eq]
    constructor
    · rintro ⟨f, hf | hf, rfl⟩
      · exact Or.inl ⟨f, hf, rfl⟩
      · exact Or.inr ⟨f, hf, rfl⟩
    · rintro (⟨f, hf, rfl⟩ | ⟨f, hf, rfl⟩)
      · exact ⟨f, Or.inl hf, rfl⟩
      · exact ⟨f, Or.inr hf, rfl⟩
  · intro hc
    simp only [addEls, Bool.or_eq_true, List.any_eq_true, decide_eq_true_eq] at hc
    rcases hc with hc | ⟨f, hf, hd⟩
    · obtain ⟨f, hf, h0⟩ := h.const hc
      exact ⟨f, List.mem_append_left _ hf, h0⟩
    · exact ⟨f, List.mem_append_right _ hf, lead_zero_of_deg _ (hN f hf) hd⟩

theorem Inv.lmps_lt (h : Inv C J s) : ∀ k ∈ s.pst.lmps, k < s.els.length := fun k hk => by
  have := h.pinv.lmps k hk
  rw [h.lo] at this
  exact this

theorem Inv.redSet_le (h : Inv C J s) : Ideal.span (redSet C.p s.els s.pst.lmps) ≤ J := by
  rw [Ideal.span_le]
  rintro g ⟨k, hk, rfl⟩
  rw [← h.ideal]
  exact Ideal.subset_span ⟨_, getD_mem (h.lmps_lt k hk), rfl⟩

/-- On a Gröbner basis the ideal has no other element with irreducible monomials than 0. -/
theorem Inv.irr_zero (h : Inv C J s) (hd : done s) {r : MvPolynomial (Fin n) (ZMod C.p)} (hr : r ∈ J)
    (hi : ∀ u ∈ r.support, ∀ g ∈ redSet C.p s.els s.pst.lmps, g ≠ 0 → ¬ C.ord.mo.degree g ≤ u) : r = 0 := by
  by_contra h0
  obtain ⟨g, ⟨f, hf, rfl⟩, hg0, hle⟩ := (inv_groebner h hd).2 r hr h0
  obtain ⟨i, hi', rfl⟩ := List.mem_iff_getElem.mp hf
  obtain ⟨k, hk, hk'⟩ := h.reducers hi'
  have hok := h.ok _ (getD_mem (h.lmps_lt k hk))
  rw [List.getD_eq_getElem s.els _ hi'] at hk'
  refine hi _ (C.ord.mo.degree_mem_support h0) _ ⟨k, hk, rfl⟩ (ne_zero_of_monic (m := C.ord.mo) hok.monic) ?_
  rw [hok.degree]
  rw [(h.ok _ hf).degree] at hle
  exact le_trans (fs_le.mpr hk') hle

end

/-! ### The invariant -/

/-- The invariant: the elements generate an ideal between `I` and `I : f^∞` and the stored elements are
congruent to multiples of `f`. -/
structure SInv (C : Cfg n) [Fact C.p.Prime] (I : Ideal (MvPolynomial (Fin n) (ZMod C.p)))
    (f : MvPolynomial (Fin n) (ZMod C.p)) (J : Ideal (MvPolynomial (Fin n) (ZMod C.p))) (s : SSt n) : Prop where
  inv : Inv C J s.st
  btw : Between I f J
  sat : ∀ m g, (m, some g) ∈ s.sat → SatOk C.p J f m g

theorem SatOk.mono {p : Nat} {J J' : Ideal (MvPolynomial (Fin n) (ZMod p))} {f : MvPolynomial (Fin n) (ZMod p)} {m : Mon n}
    {g : Poly n} (h : SatOk p J f m g) (hJ : J ≤ J') : SatOk p J' f m g := ⟨h.1, hJ h.2⟩

theorem SatOk.mul {p : Nat} [Fact p.Prime] {J : Ideal (MvPolynomial (Fin n) (ZMod p))} {f : MvPolynomial (Fin n) (ZMod p)}
    {m q : Mon n} {g : Poly n} (h : SatOk p J f m g) (hq : m ≤ q) : SatOk p J f q (mulPoly (q - m) g) := by
  refine ⟨⟨?_, ?_⟩, ?_⟩
  · have : (mulPoly (q - m) g).map Prod.fst = (g.map Prod.fst).map fun u => q - m + u := by
      simp [mulPoly, Function.comp_def]
    rw [this]
    exact h.1.nodup.map fun a b hab => add_left_cancel hab
  · intro t ht
    obtain ⟨x, hx, rfl⟩ := List.mem_map.mp ht
    exact h.1.coeff x hx
  · rw [toMv_mulPoly]
    have e : (monomial (fs q) 1 : MvPolynomial (Fin n) (ZMod p)) = monomial (fs (q - m)) 1 * monomial (fs m) 1 := by
      rw [monomial_mul, one_mul, ← fs_add, show q - m + m = q from funext fun i => Nat.sub_add_cancel (hq i)]
    have : monomial (fs (q - m)) 1 * toMv p g - monomial (fs q) 1 * f =
        monomial (fs (q - m)) 1 * (toMv p g - monomial (fs m) 1 * f) := by rw [e]; ring
    rw [this]
    exact Ideal.mul_mem_left _ _ h.2

section
variable {C : Cfg n} [hp : Fact C.p.Prime] {I J : Ideal (MvPolynomial (Fin n) (ZMod C.p))}
  {f : MvPolynomial (Fin n) (ZMod C.p)} {s s' : SSt n}

/-- The multipliers and elements of a step. -/
theorem SInv.mults (h : SInv C I f J s) {ii : Nat} {qb : List (Mon n)} {sat1 : List (Mon n × Poly n)}
    (hq : quotBasis (stdMon s.st.els s.st.pst.lmps) ii = some qb) (hu : updMult qb s.sat = some sat1) :
    (sat1.map Prod.fst).Nodup ∧ (∀ u, u ∈ sat1.map Prod.fst ↔ stdMon s.st.els s.st.pst.lmps u = true ∧ tdeg u ≤ ii) ∧
    ∀ e ∈ sat1, SatOk C.p J f e.1 e.2 := by
  obtain ⟨q1, q2⟩ := quotBasis_spec (fun u v huv hv => stdMon_mono huv hv) hq
  obtain ⟨u1, u2⟩ := updMult_spec hu
  rw [u1]
  refine ⟨q1, q2, fun e he => ?_⟩
  rcases u2 e he with h1 | ⟨m, g, h1, h2, h3⟩
  · exact h.sat _ _ h1
  · rw [h3]
    exact (h.sat _ _ h1).mul h2

theorem kernel_pre {p ld : Nat} {K : List Row} (hK : ∀ r ∈ K, r ≠ [] ∧ SRow p ld r) :
    ProbPre p 0 ld (fun _ => none) K := by
  refine ⟨Nat.zero_le _, by simp, by simp, fun r hr => ?_⟩
  obtain ⟨_, h⟩ := hK r hr
  refine ⟨?_, fun t ht => ⟨(h.bound t ht).1, (h.bound t ht).2.2⟩⟩
  exact h.sorted.imp fun hab => hab.ne

/-- The polynomials of the kernel. -/
theorem kernel_new (hp15 : 2 ^ 15 ≤ C.p) (hp31 : C.p < 2 ^ 31) {els : List (Poly n)} {lmps : List Nat}
    {hcmm : List (Mon n)} {K : List Row} {Ψ : (Nat → ZMod C.p) →ₗ[ZMod C.p] MvPolynomial (Fin n) (ZMod C.p)}
    (hk : KerFacts C.ord C.p els lmps J f hcmm K Ψ) (hs : hcmm.Pairwise (fun a b => C.ord.lt b a)) {R : Nat → Option Row}
    (hR : PLaResult C.p 0 hcmm.length (fun _ => none) K R) {g : Poly n} (hg : g ∈ newPolys hcmm R) :
    PolyOk C.ord C.p g ∧ lead g ∈ hcmm ∧ toMv C.p g * f ∈ J := by
  obtain ⟨h1, h2⟩ := pla_facts hp.out hp15 hp31 (kernel_pre hk.rows) hR
  obtain ⟨a1, c, r, a2, a3, a4, a5, a6, a7⟩ := newPolys_ok h1 (fun a b _ hab hb => by
    rw [List.getD_eq_getElem _ _ hb, List.getD_eq_getElem _ _ (by omega : a < hcmm.length)]
    exact List.pairwise_iff_getElem.mp hs a b _ _ hab) hg
  refine ⟨a1, ?_, ?_⟩
  · rw [a5, List.getD_eq_getElem _ _ a4]
    exact List.getElem_mem a4
  · have hmem : rvec C.p r ∈ kerSpan C.p K := by
      have : rvec C.p r ∈ outSpan C.p (fun _ => none) R := Submodule.subset_span (Or.inr ⟨c, r, a2, rfl⟩)
      have := h2 this
      unfold inSpan at this
      unfold kerSpan
      refine Submodule.span_mono ?_ this
      rintro v (⟨j, r, h, _⟩ | h)
      · exact absurd h (by simp)
      · exact h
    obtain ⟨_, _, _, b4⟩ := h1 c r a2
    have h0 := (hk.ker (rvec C.p r) fun k hk => rvec_zero _ _ _ fun t ht => by have := (b4 t ht).1; omega).mpr hmem
    have := hk.congr (rvec C.p r)
    rw [h0, zero_sub, ← a7] at this
    exact neg_mem_iff.mp this

theorem stage_inv (hC : CfgOk C) (hp15 : 2 ^ 15 ≤ C.p) {ii : Nat} {k : Option (List (Mon n) × List Row)}
    (h : SInv C I f J s) (hs : Stage C ii s k s') : ∃ J', J ≤ J' ∧ SInv C I f J' s' := by
  rcases hs with ⟨qb, sat1, fuel, sy, hq, hu, _, _⟩ | ⟨qb, sat1, N, hcmm, hq, hu, hk⟩ |
    ⟨qb, sat1, N, hcmm, K, R, hq, hu, hk, _, hR⟩
  · obtain ⟨_, _, m3⟩ := h.mults hq hu
    refine ⟨J, le_rfl, h.inv, h.btw, ?_⟩
    intro m g hm
    obtain ⟨e, he, h1⟩ := List.mem_map.mp hm
    obtain ⟨rfl, h2⟩ := Prod.mk.inj h1
    obtain rfl := Option.some.inj h2
    exact m3 e he
  · obtain ⟨m1, _, m3⟩ := h.mults hq hu
    obtain ⟨k1, _⟩ := kernel_facts hC.p31 h.inv.ok h.inv.lmps_lt h.inv.redSet_le m1 m3 hk
    exact ⟨J, le_rfl, h.inv, h.btw, k1⟩
  · obtain ⟨m1, _, m3⟩ := h.mults hq hu
    obtain ⟨k1, k2, k3, Ψ, k4⟩ := kernel_facts hC.p31 h.inv.ok h.inv.lmps_lt h.inv.redSet_le m1 m3 hk
    have hlen : sat1.length = hcmm.length := by rw [k2.length_eq, List.length_map]
    rw [hlen] at hR
    have hnew := fun g hg => kernel_new hp15 hC.p31 k4 k3 hR (g := g) hg
    refine ⟨J ⊔ Ideal.span { g | ∃ q ∈ newPolys hcmm R, g = toMv C.p q }, le_sup_left,
      inv_add hC h.inv fun g hg => (hnew g hg).1, between_sup h.btw ?_, ?_⟩
    · rintro g ⟨q, hq, rfl⟩
      exact (hnew q hq).2.2
    · intro m g hm
      exact (k1 m g hm).mono le_sup_left

theorem stages_inv (hC : CfgOk C) (hp15 : 2 ^ 15 ≤ C.p) {sd ii : Nat} (hs : Stages C sd ii s s') :
    ∀ {J}, SInv C I f J s → ∃ J', J ≤ J' ∧ SInv C I f J' s' := by
  induction hs with
  | done ii s _ => exact fun h => ⟨_, le_rfl, h.inv, h.btw, h.sat⟩
  | grow ii s s' k _ hst _ =>
    intro J h
    obtain ⟨J', h1, h2⟩ := stage_inv hC hp15 h hst
    exact ⟨J', h1, h2.inv, h2.btw, h2.sat⟩
  | next ii s s' s'' k _ hst _ _ ih =>
    intro J h
    obtain ⟨J', h1, h2⟩ := stage_inv hC hp15 h hst
    obtain ⟨J'', h3, h4⟩ := ih h2
    exact ⟨J'', h1.trans h3, h4⟩

theorem inv_const {s : St n} (h : Inv C J s) (b : Bool) (hb : b = true → ∃ f ∈ s.els, lead f = 0) :
    Inv C J { s with const := b } := ⟨h.ok, h.ld, h.lo, h.pinv, h.deg, h.nodup, h.ideal, hb⟩

theorem fstep_inv (hC : CfgOk C) (h : SInv C I f J s) (hs : FStep C s s') : SInv C I f J s' ∧ s'.sat = s.sat ∧
    (∃ N, s'.st.els = s.st.els ++ N) := by
  obtain ⟨t, hr⟩ := hs
  have h0 := inv_const h.inv false (by simp)
  obtain ⟨_, stale, sy, N, h1, rfl⟩ := round_inv hC h0 hr
  have h2 := inv_next hC h0 h1
  refine ⟨⟨inv_const h2 _ ?_, h.btw, h.sat⟩, rfl, N, rfl⟩
  intro hc
  rw [Bool.or_eq_true] at hc
  rcases hc with hc | hc
  · exact h2.const hc
  · obtain ⟨q, hq, hq0⟩ := h.inv.const hc
    exact ⟨q, List.mem_append_left _ hq, hq0⟩

theorem afterTest_inv (h : SInv C I f J s) (e : St n) : SInv C I f J (afterTest s e) :=
  ⟨⟨h.inv.ok, h.inv.ld, h.inv.lo, ⟨h.inv.pinv.pair, h.inv.pinv.red, h.inv.pinv.fresh, h.inv.pinv.lmps, h.inv.pinv.lo,
    h.inv.pinv.nonred, h.inv.pinv.cov⟩, h.inv.deg, h.inv.nodup, h.inv.ideal, h.inv.const⟩, h.btw, h.sat⟩

theorem sturn_inv (hC : CfgOk C) (hp15 : 2 ^ 15 ≤ C.p) (h : SInv C I f J s) (hs : STurn C s s') :
    ∃ J', J ≤ J' ∧ SInv C I f J' s' := by
  rcases hs with ⟨_, m, g, _, hf, _⟩ | ⟨t, _, m, g, e, _, hf, _, _, _, _, _, _, hst⟩ | ⟨t, _, m, g, _, hf, _, _, _, _, hst⟩
  · exact ⟨J, le_rfl, (fstep_inv hC h hf).1⟩
  · exact stages_inv hC hp15 hst (afterTest_inv (fstep_inv hC h hf).1 e)
  · exact stages_inv hC hp15 hst (fstep_inv hC h hf).1

theorem slast_inv (hC : CfgOk C) (h : SInv C I f J s) {w : SEnd n} (hs : SLast C s s' w) :
    SInv C I f J s' ∧ done s'.st := by
  rcases hs with h0 | ⟨_, _, hf, hc⟩ | ⟨t, m, g, e, _, hf, _, _, _, ht, _, _⟩
  · exact ⟨h, Or.inl h0⟩
  · exact ⟨(fstep_inv hC h hf).1, Or.inr hc⟩
  · exact ⟨afterTest_inv (fstep_inv hC h hf).1 e, Or.inl ht.2.1⟩

theorem srun_inv (hC : CfgOk C) (hp15 : 2 ^ 15 ≤ C.p) {w : SEnd n} (hs : SRun C s s' w) :
    ∀ {J}, SInv C I f J s → ∃ J', J ≤ J' ∧ SInv C I f J' s' ∧ done s'.st := by
  induction hs with
  | last s s' w hl =>
    intro J h
    exact ⟨J, le_rfl, slast_inv hC h hl⟩
  | turn s s' s'' w ht _ ih =>
    intro J h
    obtain ⟨J', h1, h2⟩ := sturn_inv hC hp15 h ht
    obtain ⟨J'', h3, h4⟩ := ih h2
    exact ⟨J'', h1.trans h3, h4⟩

theorem sinv_start (hC : CfgOk C) {F : List (Poly n)} (hF : ∀ g ∈ F, PolyOk C.ord C.p g) {q : Poly n} (hq : InPoly C.p q) :
    SInv C (Ideal.span { g | ∃ f ∈ F, g = toMv C.p f }) (toMv C.p q) (Ideal.span { g | ∃ f ∈ F, g = toMv C.p f })
      (satStart C F q) := by
  refine ⟨inv_start hC hF, ⟨fun _ h => h, fun _ h => InSat.of_mem h⟩, ?_⟩
  intro m g hm
  have hm : (m, some g) = (0, some q) := List.mem_singleton.mp hm
  obtain ⟨rfl, h2⟩ := Prod.mk.inj hm
  obtain rfl := Option.some.inj h2
  refine ⟨hq, ?_⟩
  have : fs (0 : Mon n) = 0 := by ext i; rfl
  rw [this, ← MvPolynomial.C_apply, map_one, one_mul, sub_self]
  exact Ideal.zero_mem _

end

end Verif.F4
