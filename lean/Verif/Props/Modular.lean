import Verif.Props.MulMatrix
import Verif.Props.Param
import Mathlib.Tactic.IntervalCases

/-! Property C61: the complete modular computation, from the generators to the parametrization. -/

namespace Verif.Props

open Verif.F4 Verif.Pairs Verif.Spec Verif.MulMatrix Verif.Fglm Verif.BM Verif.Hankel Verif.LinForms MvPolynomial

variable {n : ℕ}

/-- The basis as lists of terms with coefficients in the field. -/
def fieldPoly (p : ℕ) (f : Poly n) : List ((Fin n → ℕ) × ZMod p) := f.map fun t => (t.1, (t.2 : ZMod p))

theorem lead_fieldPoly (p : ℕ) (f : Poly n) : Spec.lead (fieldPoly p f) = F4.lead f := by
  cases f with
  | nil => rfl
  | cons t f => rfl

theorem evalAt_fieldPoly {p : ℕ} [Fact p.Prime] {A : Type*} [CommRing A] [Algebra (ZMod p) A] (f : Poly n) (pt : Fin n → A) :
    evalAt (fieldPoly p f) pt = aeval pt (toMv p f) := by
  rw [aeval_toMv, evalAt, fieldPoly, List.map_map]
  congr 1
  refine List.map_congr_left fun t _ => ?_
  simp [Algebra.smul_def, mval]

theorem reduced_fieldPoly {p : ℕ} [Fact p.Prime] {G : List (Poly n)} (h : RedBasis p G) :
    Reduced G.length (fun i => fieldPoly p (G.getD i [])) where
  ne := by
    intro i hi h0
    have := (h.ok _ (getD_mem [] hi)).ne_nil
    rw [fieldPoly, List.map_eq_nil_iff] at h0
    exact this h0
  sorted := by
    intro i hi
    have := (h.ok _ (getD_mem [] hi)).sorted
    rw [List.pairwise_map] at this
    rw [fieldPoly, List.pairwise_map]
    exact this
  red := by
    intro i j hi hj hij t ht s hs hle
    obtain ⟨t', ht', rfl⟩ := List.mem_map.mp ht
    have hne : G.getD i [] ≠ G.getD j [] := by
      intro he
      rcases lt_or_gt_of_ne hij with h1 | h1
      · have := getD_lt h.sorted [] h1 hj
        rw [he] at this
        exact OKind.drl.adm.irrefl _ this
      · have := getD_lt h.sorted [] h1 hi
        rw [he] at this
        exact OKind.drl.adm.irrefl _ this
    have hl : F4.lead (G.getD j []) = s.1 := by
      rw [← lead_fieldPoly p, Spec.lead, hs]
      rfl
    exact h.red _ (getD_mem [] hi) _ (getD_mem [] hj) hne t' ht' (hl ▸ hle)

/-- An ideal is generated by a parametrization of its quotient. -/
theorem span_param {K : Type*} [Field K] {I : Ideal (MvPolynomial (Fin n) K)} {last : Fin n} {w : Polynomial K}
    {c : ℕ → Polynomial K} (hlast : last.val = n - 1) (hw : w = minpoly K (Ideal.Quotient.mk I (X last)))
    (hc : ∀ k : Fin n, k < last →
      Ideal.Quotient.mk I (X k) + Polynomial.aeval (Ideal.Quotient.mk I (X last)) (c k) = 0) :
    I = Ideal.span ({Polynomial.aeval (X last) w} ∪ {g | ∃ k : Fin n, k < last ∧ g = X k + Polynomial.aeval (X last) (c k)}) := by
  set J : Ideal (MvPolynomial (Fin n) K) := Ideal.span ({Polynomial.aeval (X last) w} ∪ {g | ∃ k : Fin n, k < last ∧ g = X k + Polynomial.aeval (X last) (c k)})
    with hJ
  have hmk : ∀ f : Polynomial K, Ideal.Quotient.mk I (Polynomial.aeval (X last : MvPolynomial (Fin n) K) f) =
      Polynomial.aeval (Ideal.Quotient.mk I (X last)) f := fun f =>
    (Polynomial.aeval_algHom_apply (Ideal.Quotient.mkₐ K I) (X last) f).symm
  apply le_antisymm
  · intro f hf
    -- substitution of the parametrization
    let σ : Fin n → Polynomial K := fun k => if k = last then Polynomial.X else - c k
    have hσ : ∀ g : MvPolynomial (Fin n) K, g - Polynomial.aeval (X last) (aeval σ g) ∈ J := by
      intro g
      rw [← Ideal.Quotient.eq]
      have e1 : Ideal.Quotient.mk J (Polynomial.aeval (X last : MvPolynomial (Fin n) K) (aeval σ g)) =
          aeval (fun k => Ideal.Quotient.mk J (Polynomial.aeval (X last : MvPolynomial (Fin n) K) (σ k))) g := by
        let φ : Polynomial K →ₐ[K] MvPolynomial (Fin n) K ⧸ J :=
          (Ideal.Quotient.mkₐ K J).comp (Polynomial.aeval (X last : MvPolynomial (Fin n) K))
        exact comp_aeval_apply (f := σ) φ g
      have e2 : Ideal.Quotient.mk J g = aeval (fun k => Ideal.Quotient.mk J (X k)) g := by
        have h := (comp_aeval_apply (Ideal.Quotient.mkₐ K J) g (f := X)).symm
        rw [aeval_X_left_apply] at h
        exact h.symm
      rw [e1, e2]
      congr 2
      funext k
      rw [Ideal.Quotient.eq]
      by_cases hk : k = last
      · subst hk
        simp [σ]
      · have hlt : k < last := by
          refine lt_of_le_of_ne ?_ hk
          rw [Fin.le_def, hlast]
          have := k.isLt
          omega
        simp only [σ, if_neg hk, map_neg, sub_neg_eq_add]
        exact Ideal.subset_span (Or.inr ⟨k, hlt, rfl⟩)
    have hI : J ≤ I := by
      rw [hJ, Ideal.span_le]
      rintro g (rfl | ⟨k, hk, rfl⟩)
      · rw [SetLike.mem_coe, ← Ideal.Quotient.eq_zero_iff_mem, hmk, hw, minpoly.aeval]
      · rw [SetLike.mem_coe, ← Ideal.Quotient.eq_zero_iff_mem, map_add, hmk]
        exact hc k hk
    have h0 : Polynomial.aeval (Ideal.Quotient.mk I (X last)) (aeval σ f) = 0 := by
      rw [← hmk, Ideal.Quotient.eq_zero_iff_mem]
      have := I.sub_mem hf (hI (hσ f))
      rwa [sub_sub_cancel] at this
    obtain ⟨q, hq⟩ := minpoly.dvd K _ h0
    have h1 : Polynomial.aeval (X last) (aeval σ f) ∈ J := by
      rw [hq, ← hw, map_mul]
      exact J.mul_mem_right _ (Ideal.subset_span (Or.inl rfl))
    have := J.add_mem (hσ f) h1
    rwa [sub_add_cancel] at this
  · rw [hJ, Ideal.span_le]
    rintro g (rfl | ⟨k, hk, rfl⟩)
    · rw [SetLike.mem_coe, ← Ideal.Quotient.eq_zero_iff_mem, hmk, hw, minpoly.aeval]
    · rw [SetLike.mem_coe, ← Ideal.Quotient.eq_zero_iff_mem, map_add, hmk]
      exact hc k hk

/-- The degree of the minimal polynomial is then the dimension. -/
theorem natDegree_of_param {K : Type*} [Field K] {I : Ideal (MvPolynomial (Fin n) K)}
    [Module.Finite K (MvPolynomial (Fin n) K ⧸ I)] {last : Fin n} {c : ℕ → Polynomial K} (hlast : last.val = n - 1)
    (hc : ∀ k : Fin n, k < last →
      Ideal.Quotient.mk I (X k) + Polynomial.aeval (Ideal.Quotient.mk I (X last)) (c k) = 0) :
    (minpoly K (Ideal.Quotient.mk I (X last))).natDegree = Module.finrank K (MvPolynomial (Fin n) K ⧸ I) := by
  have hint : IsIntegral K (Ideal.Quotient.mk I (X last)) := Algebra.IsIntegral.isIntegral _
  have hk : ∀ k : Fin n, Ideal.Quotient.mk I (X k) ∈ Algebra.adjoin K {Ideal.Quotient.mk I (X last)} := by
    intro k
    by_cases hk : k = last
    · subst hk
      exact Algebra.self_mem_adjoin_singleton K _
    · have hlt : k < last := by
        refine lt_of_le_of_ne ?_ hk
        rw [Fin.le_def, hlast]
        have := k.isLt
        omega
      rw [eq_neg_of_add_eq_zero_left (hc k hlt)]
      exact neg_mem (Polynomial.aeval_mem_adjoin_singleton K _)
  have htop : Algebra.adjoin K {Ideal.Quotient.mk I (X last)} = ⊤ := by
    rw [eq_top_iff]
    intro a _
    obtain ⟨f, rfl⟩ := Ideal.Quotient.mk_surjective a
    induction f using MvPolynomial.induction_on with
    | C a => exact Subalgebra.algebraMap_mem _ a
    | add f g hf hg => rw [map_add]; exact add_mem (hf trivial) (hg trivial)
    | mul_X f k hf => rw [map_mul]; exact mul_mem (hf trivial) (hk k)
  have h := (Algebra.adjoin.powerBasis hint).finrank
  rw [Algebra.adjoin.powerBasis_dim, htop] at h
  rw [← h]
  exact Subalgebra.topEquiv.toLinearEquiv.finrank_eq

/-- The modular computation from a reduced Gröbner basis to a parametrization. -/
theorem modular_gb {p : ℕ} [hp : Fact p.Prime] (hp31 : p < 2 ^ 31) {I : Ideal (MvPolynomial (Fin n) (ZMod p))} {G : List (Poly n)}
    (hG : IsReducedGroebner OKind.drl.mo I {g | ∃ f ∈ G, g = toMv p f}) (hok : ∀ f ∈ G, PolyOk .drl p f)
    (hsort : G.Pairwise fun a b => OKind.drl.lt (F4.lead a) (F4.lead b))
    {fuel : ℕ} {lmb : List (Mon n)} (hb : Hilbert.monomialBasis (G.map F4.lead) fuel = .done lmb) (hne : lmb ≠ [])
    {nf : List (Poly n) → List (Option (Poly n))}
    (hnf : ∀ tbr, (∀ f ∈ tbr, InPoly p f) → NfRun .drl p G (List.range G.length) tbr (nf tbr))
    {last : Fin n} (hlast : last.val = n - 1) (us : ℤ) {M : MMat} (hM : build p last us G lmb nf = .ok M)
    (ev0 : ℕ → ℕ) (vecinit vvec : ℕ → ZMod p)
    {hg : Polynomial (ZMod p) → Polynomial (ZMod p) → HM (ZMod p)} (hhg : HgcdOk hg)
    {sqf : List (Polynomial (ZMod p) × ℕ)} (hsqf : SqfOk (minPoly hg ((M.toMat p).pts vecinit vvec) lmb.length) sqf) :
    let P := fun i => fieldPoly p (G.getD i [])
    let elim := sqfPart (minPoly hg ((M.toMat p).pts vecinit vvec) lmb.length) lmb.length sqf
    let lv := linVars n G.length (fun i j => Orders.ext (Spec.lead (P i)) j)
    let lineqs := rows slotCheck n (fun j => (P j).map fun t => (Orders.setEv n 0 (Orders.ext t.1) ev0, t.2)) lv.1
    let inv := invert hg ((M.toMat p).pts vecinit vvec) lmb.length
    let res := params inv lmb.length ((M.toMat p).res vecinit vvec) lv.2 lv.1 lineqs n elim
    elim.natDegree = lmb.length →
    (res = none ↔ lv.2 ≠ n ∧ inv = .other) ∧
    ∀ r, res = some r →
      Squarefree r.1 ∧ r.1.Monic ∧ r.1.natDegree = lmb.length ∧
      I = Ideal.span ({Polynomial.aeval (X last) r.1} ∪
          {g | ∃ k : Fin n, k < last ∧ g = X k + Polynomial.aeval (X last) (r.2 k)}) ∧
      ∀ (L : Type) [Field L] [Algebra (ZMod p) L] (z : Fin n → L),
        (∀ f ∈ I, aeval z f = 0) ↔
          Polynomial.aeval (z last) r.1 = 0 ∧ ∀ k : Fin n, k < last → z k = -Polynomial.aeval (z last) (r.2 k) := by
  intro P elim lv lineqs inv res hdim
  have hn : 1 ≤ n := by have := last.isLt; omega
  obtain ⟨c1, c2⟩ := C60_matrix hp31 hn hG hok hsort hb hne hnf last us
  obtain ⟨M', hM', m1, m2, _⟩ := c2 (by
    by_contra hlt
    rw [c1 (by omega)] at hM
    exact absurd hM (by simp))
  rw [hM] at hM'
  obtain rfl : M = M' := by injection hM'
  obtain ⟨B, hB⟩ := C60_basis hn hG hok hb
  obtain ⟨hsrt, hm⟩ := irr_iff hn hb
  have hR := redBasis_of hG hok hsort
  have hred := reduced_fieldPoly hR
  have haev : ∀ f : MvPolynomial (Fin n) (ZMod p), aeval (fun j => Ideal.Quotient.mk I (X j)) f = Ideal.Quotient.mk I f := by
    intro f
    have h := (comp_aeval_apply (Ideal.Quotient.mkₐ (ZMod p) I) f (f := X)).symm
    rw [aeval_X_left_apply] at h
    exact h
  have hmv : ∀ u : Mon n, ∏ j, Ideal.Quotient.mk I (X j) ^ u j = Ideal.Quotient.mk I (monomial (fs u) 1) := mval_quot
  obtain ⟨hnone, h53⟩ := C53_shape (lml := G.length) (P := P) hred (by
      intro i hi t ht
      obtain ⟨t', ht'⟩ := (hok _ (getD_mem [] hi)).head
      simp only [P] at ht
      rw [ht', fieldPoly, List.map_cons, List.head?_cons, Option.some.injEq] at ht
      rw [← ht]
      simp) hlast (x := fun j => Ideal.Quotient.mk I (X j)) (by
      intro i hi
      rw [evalAt_fieldPoly, haev, Ideal.Quotient.eq_zero_iff_mem]
      exact hG.1.1 _ ⟨_, getD_mem [] hi, rfl⟩) (mb := lmb) hsrt (by
      intro m
      rw [hm]
      constructor
      · intro h i hi
        rw [lead_fieldPoly]
        exact h _ (getD_mem [] hi)
      · intro h f hf
        obtain ⟨i, hi, he⟩ := exists_getD [] hf
        have := h i hi
        rwa [lead_fieldPoly, he] at this) hne B (fun i => by rw [hB, hmv]) (M := M.toMat p) (by
      simp only [hmv]
      exact m2) m1 ev0 vecinit vvec hhg hsqf hdim
  refine ⟨hnone, fun r hr => ?_⟩
  obtain ⟨r1, r2, r3⟩ := h53 r hr
  have hspan := span_param (w := r.1) (c := r.2) hlast r1 r3
  have : Module.Finite (ZMod p) (MvPolynomial (Fin n) (ZMod p) ⧸ I) := Module.Finite.of_basis B
  have hmonic : r.1.Monic := by
    rw [r1]
    exact minpoly.monic (Algebra.IsIntegral.isIntegral _)
  have hdeg : r.1.natDegree = lmb.length := by
    rw [r1, natDegree_of_param hlast r3, Module.finrank_eq_card_basis B, Fintype.card_fin]
  refine ⟨r2, hmonic, hdeg, hspan, ?_⟩
  intro L _ _ z
  have hev : ∀ f : Polynomial (ZMod p), aeval z (Polynomial.aeval (X last : MvPolynomial (Fin n) (ZMod p)) f) =
      Polynomial.aeval (z last) f := by
    intro f
    have := (Polynomial.aeval_algHom_apply (aeval z : MvPolynomial (Fin n) (ZMod p) →ₐ[ZMod p] L) (X last) f).symm
    rw [this, aeval_X]
  have hker : ∀ S : Set (MvPolynomial (Fin n) (ZMod p)), (∀ g ∈ S, aeval z g = 0) ↔ ∀ g ∈ Ideal.span S, aeval z g = 0 := by
    intro S
    constructor
    · intro h
      have : Ideal.span S ≤ RingHom.ker (aeval z : MvPolynomial (Fin n) (ZMod p) →ₐ[ZMod p] L).toRingHom := by
        rw [Ideal.span_le]
        intro g hg
        exact h g hg
      intro g hg
      exact this hg
    · intro h g hg
      exact h g (Ideal.subset_span hg)
  rw [hspan, ← hker]
  constructor
  · intro h
    refine ⟨by rw [← hev]; exact h _ (Or.inl rfl), fun k hk => ?_⟩
    have := h _ (Or.inr ⟨k, hk, rfl⟩)
    rw [map_add, aeval_X, hev] at this
    exact eq_neg_of_add_eq_zero_left this
  · rintro ⟨h1, h2⟩ g (rfl | ⟨k, hk, rfl⟩)
    · rw [hev]; exact h1
    · rw [map_add, aeval_X, hev, h2 k hk, neg_add_cancel]

/-- C61: the modular computation from generators `F` to a parametrization, composed of F4 (C44), the monomial basis (C24),
the matrix of the multiplication by the last variable (C60, with normal forms C59), the scalar sequence and its minimal
polynomial (C25), and the parametrization in shape position (C53).  Whatever the random vector and the choices of the
sorts, if the square-free part of the minimal polynomial found has degree the dimension of the quotient, then a returned
parametrization describes the ideal: it is generated by `w(x_n)` and `x_k + c_k(x_n)`, `w` is square-free, and the
solutions in every extension field are the points given by the roots of `w`.  Nothing is returned only in the unmodelled case
of the inversion (C52). -/
theorem C61_modular {C : Cfg n} (hC : CfgOk C) (hord : C.ord = .drl) {F : List (Poly n)} (hF : ∀ f ∈ F, PolyOk C.ord C.p f)
    {s : St n} {G : List (Poly n)} (hs : Reach C F s) (hd : done s) (hfin : Final C s G)
    {fuel : ℕ} {lmb : List (Mon n)} (hb : Hilbert.monomialBasis (G.map F4.lead) fuel = .done lmb) (hne : lmb ≠ [])
    {nf : List (Poly n) → List (Option (Poly n))}
    (hnf : ∀ tbr, (∀ f ∈ tbr, InPoly C.p f) → NfRun .drl C.p G (List.range G.length) tbr (nf tbr))
    {last : Fin n} (hlast : last.val = n - 1) (us : ℤ) {M : MMat} (hM : build C.p last us G lmb nf = .ok M)
    (ev0 : ℕ → ℕ) (vecinit vvec : ℕ → ZMod C.p) :
    have : Fact C.p.Prime := ⟨hC.prime⟩
    ∀ {hg : Polynomial (ZMod C.p) → Polynomial (ZMod C.p) → HM (ZMod C.p)} (_ : HgcdOk hg)
      {sqf : List (Polynomial (ZMod C.p) × ℕ)} (_ : SqfOk (minPoly hg ((M.toMat C.p).pts vecinit vvec) lmb.length) sqf),
    let P := fun i => fieldPoly C.p (G.getD i [])
    let elim := sqfPart (minPoly hg ((M.toMat C.p).pts vecinit vvec) lmb.length) lmb.length sqf
    let lv := linVars n G.length (fun i j => Orders.ext (Spec.lead (P i)) j)
    let lineqs := rows slotCheck n (fun j => (P j).map fun t => (Orders.setEv n 0 (Orders.ext t.1) ev0, t.2)) lv.1
    let inv := invert hg ((M.toMat C.p).pts vecinit vvec) lmb.length
    let res := params inv lmb.length ((M.toMat C.p).res vecinit vvec) lv.2 lv.1 lineqs n elim
    elim.natDegree = lmb.length →
    (res = none ↔ lv.2 ≠ n ∧ inv = .other) ∧
    ∀ r, res = some r →
      Squarefree r.1 ∧ r.1.Monic ∧ r.1.natDegree = lmb.length ∧
      Ideal.span { g | ∃ f ∈ F, g = toMv C.p f } =
        Ideal.span ({Polynomial.aeval (X last) r.1} ∪
          {g | ∃ k : Fin n, k < last ∧ g = X k + Polynomial.aeval (X last) (r.2 k)}) ∧
      ∀ (L : Type) [Field L] [Algebra (ZMod C.p) L] (z : Fin n → L),
        (∀ f ∈ F, aeval z (toMv C.p f) = 0) ↔
          Polynomial.aeval (z last) r.1 = 0 ∧ ∀ k : Fin n, k < last → z k = -Polynomial.aeval (z last) (r.2 k) := by
  intro hp hg hhg sqf hsqf P elim lv lineqs inv res hdim
  obtain ⟨hG, hok, hsort⟩ := (C44_reduced hC hF).2 s G hs hd hfin
  rw [hord] at hG hok hsort
  obtain ⟨h1, h2⟩ := modular_gb hC.p31 hG hok hsort hb hne hnf hlast us hM ev0 vecinit vvec hhg hsqf hdim
  refine ⟨h1, fun r hr => ?_⟩
  obtain ⟨r1, r2, r3, r4, r5⟩ := h2 r hr
  refine ⟨r1, r2, r3, r4, fun L _ _ z => ?_⟩
  rw [← r5]
  constructor
  · intro h g hg
    have : Ideal.span { g | ∃ f ∈ F, g = toMv C.p f } ≤ RingHom.ker (aeval z : MvPolynomial (Fin n) (ZMod C.p) →ₐ[ZMod C.p] L).toRingHom := by
      rw [Ideal.span_le]
      rintro _ ⟨f, hf, rfl⟩
      exact h f hf
    exact this hg
  · intro h f hf
    exact h _ (Ideal.subset_span ⟨f, hf, rfl⟩)

/-! ### The hypotheses are met: `y^2 - 1`, `x - y` modulo 101 -/

def exS : List (Poly 2) := [[(![0, 2], 1), (![0, 0], 100)], [(![1, 0], 1), (![0, 1], 100)]]

/-- The result of F4. -/
def exSG : List (Poly 2) := [[(![1, 0], 1), (![0, 1], 100)], [(![0, 2], 1), (![0, 0], 100)]]

theorem exS_ok : ∀ f ∈ exS, PolyOk .drl 101 f := by
  intro f hf
  simp only [exS, List.mem_cons, List.not_mem_nil, or_false] at hf
  rcases hf with rfl | rfl
  · refine ⟨⟨_, rfl⟩, ?_, by decide⟩
    simp only [OKind.lt, Drl, DrlOn]
    decide
  · refine ⟨⟨_, rfl⟩, ?_, by decide⟩
    simp only [OKind.lt, Drl, DrlOn]
    decide

theorem exSG_ok : ∀ f ∈ exSG, PolyOk .drl 101 f := by
  intro f hf
  refine exS_ok f ?_
  simp only [exSG, exS, List.mem_cons, List.not_mem_nil, or_false] at hf ⊢
  tauto

theorem exSG_sorted : exSG.Pairwise (fun a b => OKind.drl.lt (F4.lead a) (F4.lead b)) := by
  simp only [exSG, F4.lead, OKind.lt, Drl, DrlOn]
  decide

theorem exs1 : (1 : ZMod 101) + ((100 : ℕ) : ZMod 101) = 0 := by decide
theorem exs2 : (100 : ZMod 101) * 100 + ((100 : ℕ) : ZMod 101) = 0 := by decide
theorem exs3 : (100 : ZMod 101) + ((100 : ℕ) : ZMod 101) * 100 = 0 := by decide
theorem exs4 (a b : ZMod 101) (h1 : a + b = 0) (h2 : a + b * 100 = 0) : a = 0 ∧ b = 0 := by
  have h : (101 : ZMod 101) = 0 := by decide
  constructor
  · linear_combination h1 - 50 * (h2 - h1) + 49 * b * h
  · linear_combination 50 * (h2 - h1) - 49 * b * h

/-- The ideal vanishes at `(1, 1)` and `(100, 100)`. -/
theorem exS_zeros {g : MvPolynomial (Fin 2) (ZMod 101)} (hg : g ∈ Ideal.span { g | ∃ f ∈ exS, g = toMv 101 f }) :
    eval (fun _ => 1) g = 0 ∧ eval (fun _ => 100) g = 0 := by
  have h1 : Ideal.span { g | ∃ f ∈ exS, g = toMv 101 f } ≤ RingHom.ker (eval (fun _ => (1 : ZMod 101))) := by
    rw [Ideal.span_le]
    rintro _ ⟨f, hf, rfl⟩
    simp only [exS, List.mem_cons, List.not_mem_nil, or_false] at hf
    rcases hf with rfl | rfl
    · simp [toMv, RingHom.mem_ker, eval_monomial, Finsupp.prod_fintype]
      exact exs1
    · simp [toMv, RingHom.mem_ker, eval_monomial, Finsupp.prod_fintype]
      exact exs1
  have h2 : Ideal.span { g | ∃ f ∈ exS, g = toMv 101 f } ≤ RingHom.ker (eval (fun _ => (100 : ZMod 101))) := by
    rw [Ideal.span_le]
    rintro _ ⟨f, hf, rfl⟩
    simp only [exS, List.mem_cons, List.not_mem_nil, or_false] at hf
    rcases hf with rfl | rfl
    · simp [toMv, RingHom.mem_ker, eval_monomial, Finsupp.prod_fintype]
      exact exs2
    · simp [toMv, RingHom.mem_ker, eval_monomial, Finsupp.prod_fintype]
      exact exs3
  exact ⟨h1 hg, h2 hg⟩

theorem exSG_groebner : have : Fact (Nat.Prime 101) := ⟨by norm_num⟩
    IsReducedGroebner OKind.drl.mo (Ideal.span { g | ∃ f ∈ exS, g = toMv 101 f }) { g | ∃ f ∈ exSG, g = toMv 101 f } := by
  intro hp
  refine ⟨⟨?_, ?_⟩, ?_, ?_⟩
  · rintro _ ⟨f, hf, rfl⟩
    refine Ideal.subset_span ⟨f, ?_, rfl⟩
    simp only [exSG, exS, List.mem_cons, List.not_mem_nil, or_false] at hf ⊢
    tauto
  · intro f hf h0
    by_contra hc
    push Not at hc
    have hne : ∀ g ∈ exSG, toMv 101 g ≠ 0 := by
      intro g hg h
      have := (exSG_ok g hg).monic
      rw [h, MonomialOrder.leadingCoeff_zero] at this
      exact zero_ne_one this
    have c1 := hc _ ⟨_, List.mem_cons_self, rfl⟩ (hne _ List.mem_cons_self)
    have c2 := hc _ ⟨_, List.mem_cons_of_mem _ List.mem_cons_self, rfl⟩ (hne _ (List.mem_cons_of_mem _ List.mem_cons_self))
    rw [(exSG_ok _ (List.mem_cons_self)).degree] at c1
    rw [(exSG_ok _ (List.mem_cons_of_mem _ List.mem_cons_self)).degree] at c2
    obtain ⟨u, hu⟩ := fs_surj (OKind.drl.mo.degree f)
    rw [← hu] at c1 c2
    have c1 : ¬ (![1, 0] : Mon 2) ≤ u := fun h => c1 h
    have c2 : ¬ (![0, 2] : Mon 2) ≤ u := fun h => c2 h
    rw [Pi.le_def, Fin.forall_fin_two] at c1 c2
    simp at c1 c2
    have hsup : ∀ v : Mon 2, coeff (fs v) f ≠ 0 → v = ![0, 0] ∨ v = ![0, 1] := by
      intro v hv
      have hle := OKind.drl.mo.le_degree (mem_support_iff.mpr hv)
      have h3 : v = u ∨ OKind.drl.lt v u := by
        by_contra hcon
        push Not at hcon
        rcases OKind.drl.adm.total v u with h | h | h
        · exact hcon.2 h
        · exact hcon.1 h
        · rw [← hu, ← not_lt] at hle
          exact hle ((F4.lt_iff _ _ _).mpr h)
      have h4 : v 0 = 0 ∧ v 1 ≤ 1 := by
        rcases h3 with rfl | h3
        · omega
        · simp only [OKind.lt, Drl, DrlOn, Fin.sum_univ_two] at h3
          rcases h3 with h3 | ⟨h3, k, h5, h6⟩
          · omega
          · have h7 := h6.2
            have h6 := h6.1
            fin_cases k
            · have := h7 1 (Finset.mem_univ _) (by decide)
              simp at h6
              omega
            · simp at h6
              omega
      have e : ∀ c, v 1 = c → v = ![0, c] := by
        intro c hc
        funext j
        fin_cases j
        · exact h4.1
        · exact hc
      rcases Nat.lt_or_ge (v 1) 1 with h2 | h2
      · exact Or.inl (e 0 (by omega))
      · exact Or.inr (e 1 (by omega))
    have hf2 : f = monomial (fs ![0, 0]) (coeff (fs ![0, 0]) f) + monomial (fs ![0, 1]) (coeff (fs ![0, 1]) f) := by
      ext m
      obtain ⟨v, rfl⟩ := fs_surj m
      simp only [coeff_add, coeff_monomial, fs_inj]
      by_cases h1 : v = ![0, 0]
      · subst h1
        simp
      · by_cases h2 : v = ![0, 1]
        · subst h2
          simp
        · rw [if_neg (Ne.symm h1), if_neg (Ne.symm h2), add_zero]
          by_contra hv
          exact (hsup v hv).elim h1 h2
    obtain ⟨z1, z2⟩ := exS_zeros hf
    rw [hf2] at z1 z2
    simp [eval_monomial, Finsupp.prod_fintype] at z1 z2
    obtain ⟨a0, b0⟩ := exs4 _ _ z1 z2
    rw [a0, b0] at hf2
    simp at hf2
    exact h0 hf2
  · rintro _ ⟨f, hf, rfl⟩
    exact (exSG_ok f hf).monic
  · rintro _ ⟨f, hf, rfl⟩ _ ⟨g, hg, rfl⟩ hne u hu hle
    obtain ⟨v, rfl⟩ := fs_surj u
    rw [(exSG_ok g hg).degree] at hle
    have hle : F4.lead g ≤ v := hle
    have hv : ∃ t ∈ f, t.1 = v := by
      by_contra hcon
      push Not at hcon
      exact mem_support_iff.mp hu (toMv_coeff_zero 101 f v hcon)
    obtain ⟨t, ht, rfl⟩ := hv
    simp only [exSG, List.mem_cons, List.not_mem_nil, or_false] at hf hg
    rcases hf with rfl | rfl <;> rcases hg with rfl | rfl
    · exact hne rfl
    · simp only [List.mem_cons, List.not_mem_nil, or_false] at ht
      rcases ht with rfl | rfl <;> simp [F4.lead, Pi.le_def, Fin.forall_fin_succ] at hle
    · simp only [List.mem_cons, List.not_mem_nil, or_false] at ht
      rcases ht with rfl | rfl <;> simp [F4.lead, Pi.le_def, Fin.forall_fin_succ] at hle
    · exact hne rfl

/-- Every result of F4 is the list `exSG`. -/
theorem exS_final {s : St 2} {G : List (Poly 2)} (hs : Reach (stdCfg .drl 101 1) exS s) (hd : done s)
    (hfin : Final (stdCfg .drl 101 1) s G) : G = exSG := by
  have hp : Fact (Nat.Prime 101) := ⟨by norm_num⟩
  obtain ⟨h1, h2, h3⟩ := (C44_reduced (C := stdCfg .drl 101 1) (stdCfg_ok _ (by norm_num) (by norm_num) (by norm_num)) exS_ok).2 s G hs
    hd hfin
  have h1 : IsReducedGroebner OKind.drl.mo (Ideal.span { g | ∃ f ∈ exS, g = toMv 101 f }) { g | ∃ f ∈ G, g = toMv 101 f } := h1
  have h2 : ∀ f ∈ G, PolyOk .drl 101 f := h2
  have h3 : G.Pairwise (fun a b => OKind.drl.lt (F4.lead a) (F4.lead b)) := h3
  have hset := Groebner.reduced_unique h1 exSG_groebner
  have hadm := OKind.drl.adm (n := 2)
  have hnd : ∀ {l : List (Poly 2)}, l.Pairwise (fun a b => OKind.drl.lt (F4.lead a) (F4.lead b)) → l.Nodup := by
    intro l hl
    refine List.Pairwise.imp ?_ hl
    rintro a b hab rfl
    exact hadm.irrefl _ hab
  have hperm : G.Perm exSG := (List.perm_ext_iff_of_nodup (hnd h3) (hnd exSG_sorted)).mpr fun f => by
    constructor
    · intro hf
      obtain ⟨g, hg, he⟩ := hset.subset ⟨f, hf, rfl⟩
      rw [toMv_injOn (h2 f hf) (exSG_ok g hg) he]
      exact hg
    · intro hf
      obtain ⟨g, hg, he⟩ := hset.symm.subset ⟨f, hf, rfl⟩
      rw [toMv_injOn (exSG_ok f hf) (h2 g hg) he]
      exact hg
  exact hperm.eq_of_pairwise (le := fun a b => OKind.drl.lt (F4.lead a) (F4.lead b))
    (fun a b _ _ hab hba => absurd (hadm.trans _ _ _ hab hba) (hadm.irrefl _)) h3 exSG_sorted

def exSB : List (Mon 2) := [![0, 0], ![0, 1]]

theorem exSB_mem (m : Mon 2) : m ∈ exSB ↔ ∀ f ∈ exSG, ¬ F4.lead f ≤ m := by
  simp only [exSB, exSG, List.mem_cons, List.not_mem_nil, or_false, forall_eq_or_imp, forall_eq]
  constructor
  · rintro (rfl | rfl) <;> simp [F4.lead, Pi.le_def, Fin.forall_fin_succ]
  · rintro ⟨h1, h2⟩
    simp [F4.lead, Pi.le_def, Fin.forall_fin_succ] at h1 h2
    have e : ∀ c, m 1 = c → m = ![0, c] := by
      intro c hc
      funext j
      fin_cases j
      · simpa using h1
      · simpa using hc
    rcases Nat.lt_or_ge (m 1) 1 with h3 | h3
    · exact Or.inl (e 0 (by omega))
    · exact Or.inr (e 1 (by omega))

theorem exSB_sorted : exSB.Pairwise OKind.drl.lt := by
  have : OKind.drl.lt (![0, 0] : Mon 2) ![0, 1] := by
    simp only [OKind.lt, Drl, DrlOn]
    decide
  simpa [exSB] using this

theorem exSB_basis : ∃ fuel, Hilbert.monomialBasis (exSG.map F4.lead) fuel = .done exSB := by
  have hfinite : {m : Fin 2 → ℕ | ∀ l ∈ exSG.map F4.lead, ¬ ∀ i, l i ≤ m i}.Finite := by
    apply Set.Finite.subset (List.finite_toSet exSB)
    intro m hm
    rw [Set.mem_ofPred_eq, exSB_mem]
    intro f hf hle
    exact hm _ (List.mem_map_of_mem hf) hle
  obtain ⟨D, hD⟩ := (C24_termination (by norm_num : 1 ≤ 2) (exSG.map F4.lead)).1 hfinite
  obtain ⟨lmb, hlmb⟩ := hD D le_rfl
  obtain ⟨h1, h2⟩ := irr_iff (by norm_num) hlmb
  have hadm := OKind.drl.adm (n := 2)
  have hnd : ∀ {l : List (Mon 2)}, l.Pairwise OKind.drl.lt → l.Nodup := by
    intro l hl
    refine List.Pairwise.imp ?_ hl
    rintro a b hab rfl
    exact hadm.irrefl _ hab
  have hperm : lmb.Perm exSB := (List.perm_ext_iff_of_nodup (hnd h1) (hnd exSB_sorted)).mpr fun m => by rw [h2, exSB_mem]
  rw [hperm.eq_of_pairwise (le := OKind.drl.lt)
    (fun a b _ _ hab hba => absurd (hadm.trans _ _ _ hab hba) (hadm.irrefl _)) h1 exSB_sorted] at hlmb
  exact ⟨D, hlmb⟩

def exSM : MMat := ⟨2, [(0, 1)], [(1, [1, 0], 1)]⟩

theorem exSM_build (nf : List (Poly 2) → List (Option (Poly 2))) : build 101 (1 : Fin 2) 3 exSG exSB nf = .ok exSM := by
  rfl

/-- The initial vector of the example. -/
def exSv : ℕ → ZMod 101 := fun i => if i = 0 then 1 else 2

theorem exSM_pts : have : Fact (Nat.Prime 101) := ⟨by norm_num⟩
    (exSM.toMat 101).pts exSv (fun _ => 0) = [1, 2, 1, 2] := by
  simp [Mat.pts, exSM, exSv, MMat.toMat, Mat.res, Mat.iter, Mat.mulVec, List.range_succ, Finset.sum_range_succ]

section
open Polynomial (derivative natDegree coeff)
variable {K : Type*} [Field K]

/-- The sequence `1, 2, 1, 2, ..`. -/
def exKs (K : Type*) [Field K] (i : ℕ) : K := if i % 2 = 0 then 1 else 2

/-- Its minimal polynomial. -/
noncomputable def exKV (K : Type*) [Field K] : Polynomial K := Polynomial.X ^ 2 - 1

theorem exKV_degree : (exKV K).natDegree = 2 := by
  unfold exKV
  compute_degree!

theorem exKV_monic : (exKV K).Monic := by
  have := Polynomial.monic_X_pow_sub_C (1 : K) (n := 2) (by norm_num)
  simpa [exKV] using this

theorem exKs_annih : Annihilates (exKV K) (exKs K) := by
  intro i
  rw [exKV_degree]
  have h : exKs K (i + 2) = exKs K i := by simp [exKs]
  simp [exKV, Finset.sum_range_succ, Polynomial.coeff_one, h]

theorem exKs_min (h3 : (3 : K) ≠ 0) : IsMinPoly (exKV K) (exKs K) := by
  refine ⟨exKV_monic, exKs_annih, fun g hg => ?_⟩
  have hm := exKV_monic (K := K)
  rw [← Polynomial.modByMonic_eq_zero_iff_dvd hm]
  set r := g %ₘ (exKV K) with hr
  have hann : act r (exKs K) = 0 := by
    have h1 := Polynomial.modByMonic_add_div g (exKV K)
    have h2 := (annihilates_iff _ _).mp hg
    rw [← h1, act_add, mul_comm, act_mul, (annihilates_iff _ _).mp exKs_annih, map_zero, add_zero] at h2
    exact h2
  have hd : r.natDegree < 2 := by
    have := Polynomial.natDegree_modByMonic_lt g hm (by
      intro h1
      have := exKV_degree (K := K)
      rw [h1, Polynomial.natDegree_one] at this
      omega)
    rwa [exKV_degree] at this
  have h0 := congrFun hann 0
  have h1 := congrFun hann 1
  rw [act_apply r _ _ hd] at h0 h1
  simp [Finset.sum_range_succ, exKs] at h0 h1
  ext m
  rw [Polynomial.coeff_zero]
  rcases Nat.lt_or_ge m 2 with hm2 | hm2
  · interval_cases m
    · exact (mul_eq_zero.mp (show (3 : K) * r.coeff 0 = 0 by linear_combination 2 * h1 - h0)).resolve_left h3
    · exact (mul_eq_zero.mp (show (3 : K) * r.coeff 1 = 0 by linear_combination 2 * h0 - h1)).resolve_left h3
  · exact Polynomial.coeff_eq_zero_of_natDegree_lt (by omega)

theorem exKV_sqf (h2 : (2 : K) ≠ 0) : Squarefree (exKV K) := by
  apply Polynomial.Separable.squarefree
  refine ⟨-1, Polynomial.C (2⁻¹) * Polynomial.X, ?_⟩
  unfold exKV
  simp only [Polynomial.derivative_sub, Polynomial.derivative_X_pow, Polynomial.derivative_one, sub_zero]
  have : (Polynomial.C 2⁻¹ * Polynomial.C 2 : Polynomial K) = 1 := by
    rw [← Polynomial.C_mul, inv_mul_cancel₀ h2, Polynomial.C_1]
  simp only [Nat.cast_ofNat, map_ofNat] at this ⊢
  linear_combination Polynomial.X ^ 2 * this

theorem exKV_run (h2 : (2 : K) ≠ 0) (h3 : (3 : K) ≠ 0) {hg : Polynomial K → Polynomial K → HM K} (hhg : HgcdOk hg) :
    SqfOk (minPoly hg [1, 2, 1, 2] 2) [(exKV K, 1)] ∧ (sqfPart (minPoly hg [1, 2, 1, 2] 2) 2 [(exKV K, 1)]).natDegree = 2 ∧
      ∃ Z1 Z2, invert hg [1, 2, 1, 2] 2 = .ok Z1 Z2 := by
  have hpts : ∀ i, i < 2 * 2 → [(1 : K), 2, 1, 2].getD i 0 = exKs K i := by
    intro i hi
    interval_cases i <;> simp [exKs]
  have hmin : minPoly hg [1, 2, 1, 2] 2 = exKV K := by
    refine C25_unique ((C25_compute_minpoly hhg (exKs K) 2 ⟨exKV K, exKV_monic.ne_zero, exKV_degree.le, exKs_annih⟩ _
      (by simp) hpts).1 ?_) (exKs_min h3)
    intro h
    have := congrFun h 0
    simp [exKs] at this
  rw [hmin]
  refine ⟨?_, ?_, ?_⟩
  · exact
      { prod := by simp
        pos := by simp
        monic := by simp [exKV_monic]
        sqf := by simpa using exKV_sqf h2
        coprime := by simp }
  · unfold sqfPart
    split_ifs
    · exact exKV_degree
    · simpa using exKV_degree
  · refine (C52_outcome hhg (u := exKs K) (pts := [1, 2, 1, 2]) (d := 2) (by norm_num) (by simp) (fun i hi => hpts i (by omega))).2.2.2.mpr ?_
    refine ⟨fun i => if i = 0 then -1 / 3 else 2 / 3, ?_, ?_, ?_⟩
    · intro v hv i hi
      have h0 := hv 0 (by norm_num)
      have h1 := hv 1 (by norm_num)
      simp [hmul, Finset.sum_range_succ, exKs] at h0 h1
      interval_cases i
      · exact (mul_eq_zero.mp (show (3 : K) * v 0 = 0 by linear_combination 2 * h1 - h0)).resolve_left h3
      · exact (mul_eq_zero.mp (show (3 : K) * v 1 = 0 by linear_combination 2 * h0 - h1)).resolve_left h3
    · intro t ht
      interval_cases t
      · simp [hmul, Finset.sum_range_succ, exKs]
        field_simp
        ring
      · simp [hmul, Finset.sum_range_succ, exKs]
        field_simp
        ring
    · simp [h2, h3]
end

theorem exs6 : (2 : ZMod 101) ≠ 0 ∧ (3 : ZMod 101) ≠ 0 := by decide

/-- For `y^2 - 1`, `x - y` modulo 101 and the initial vector `(1, 2)` all hypotheses of `C61_modular` hold, whatever the
choices made in the computation, and a parametrization is returned. -/
example : have : Fact (Nat.Prime 101) := ⟨by norm_num⟩
    ∀ (hg : Polynomial (ZMod 101) → Polynomial (ZMod 101) → HM (ZMod 101)), HgcdOk hg →
    (∃ s G, Reach (stdCfg .drl 101 1) exS s ∧ done s ∧ Final (stdCfg .drl 101 1) s G) ∧
    (∀ s G, Reach (stdCfg .drl 101 1) exS s → done s → Final (stdCfg .drl 101 1) s G →
      ∃ fuel lmb M sqf r, Hilbert.monomialBasis (G.map F4.lead) fuel = .done lmb ∧
        (∃ nf, build 101 (1 : Fin 2) 3 G lmb nf = .ok M) ∧
        SqfOk (minPoly hg ((M.toMat 101).pts exSv fun _ => 0) lmb.length) sqf ∧
        (sqfPart (minPoly hg ((M.toMat 101).pts exSv fun _ => 0) lmb.length) lmb.length sqf).natDegree = lmb.length ∧
        params (invert hg ((M.toMat 101).pts exSv fun _ => 0) lmb.length) lmb.length ((M.toMat 101).res exSv fun _ => 0)
          (linVars 2 G.length fun i j => Orders.ext (Spec.lead (fieldPoly 101 (G.getD i []))) j).2
          (linVars 2 G.length fun i j => Orders.ext (Spec.lead (fieldPoly 101 (G.getD i []))) j).1
          (rows slotCheck 2 (fun j => (fieldPoly 101 (G.getD j [])).map fun t => (Orders.setEv 2 0 (Orders.ext t.1) (fun _ => 0), t.2))
            (linVars 2 G.length fun i j => Orders.ext (Spec.lead (fieldPoly 101 (G.getD i []))) j).1) 2
          (sqfPart (minPoly hg ((M.toMat 101).pts exSv fun _ => 0) lmb.length) lmb.length sqf) = some r ∧
        Ideal.span { g | ∃ f ∈ exS, g = toMv 101 f } =
          Ideal.span ({Polynomial.aeval (X 1) r.1} ∪ {g | ∃ k : Fin 2, k < 1 ∧ g = X k + Polynomial.aeval (X 1) (r.2 k)})) := by
  intro hp hg hhg
  have hC := stdCfg_ok (n := 2) .drl (p := 101) (mnsel := 1) (by norm_num) (by norm_num) (by norm_num)
  refine ⟨(C44_reduced hC exS_ok).1 (by decide), fun s G hs hd hfin => ?_⟩
  obtain rfl := exS_final hs hd hfin
  obtain ⟨fuel, hb⟩ := exSB_basis
  obtain ⟨nf, hnf⟩ : ∃ nf : List (Poly 2) → List (Option (Poly 2)),
      ∀ tbr, (∀ f ∈ tbr, InPoly 101 f) → NfRun .drl 101 exSG (List.range exSG.length) tbr (nf tbr) := by
    have hex : ∀ tbr, (∀ f ∈ tbr, InPoly 101 f) → ∃ N, NfRun .drl 101 exSG (List.range exSG.length) tbr N := by
      intro tbr htbr
      exact (C59_terminates .drl 101 hp.out (by norm_num) exSG exSG_ok (List.range exSG.length) (fun k hk => List.mem_range.mp hk) tbr htbr).2.1
    classical
    refine ⟨fun tbr => if h : ∀ f ∈ tbr, InPoly 101 f then (hex tbr h).choose else [], fun tbr htbr => ?_⟩
    simp only [dif_pos htbr]
    exact (hex tbr htbr).choose_spec
  obtain ⟨r1, r2, Z1, Z2, r3⟩ := exKV_run exs6.1 exs6.2 hhg
  rw [← exSM_pts] at r1 r2 r3
  obtain ⟨k1, k2⟩ := C61_modular hC rfl exS_ok hs hd hfin hb (by simp [exSB]) hnf (last := 1) rfl 3 (exSM_build nf) (fun _ => 0) exSv (fun _ => 0)
    hhg r1 r2
  obtain ⟨r, hr⟩ := Option.ne_none_iff_exists'.mp (fun hc => by
    have := (k1.mp hc).2
    exact absurd (this.symm.trans r3) (by simp))
  exact ⟨fuel, exSB, exSM, _, r, hb, ⟨nf, exSM_build nf⟩, r1, r2, hr, (k2 r hr).2.2.2.1⟩

end Verif.Props
