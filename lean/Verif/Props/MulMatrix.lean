import Verif.MulMatrix
import Verif.Props.NormalForm
import Verif.Props.Hilbert
import Verif.Props.Arith
import Mathlib.Data.Pi.Interval

/-! Property C60: the matrix of the multiplication by the last variable. -/

namespace Verif.Props

open Verif.F4 Verif.Pairs Verif.Spec Verif.MulMatrix Verif.Fglm MvPolynomial

variable {n : ℕ}

theorem irr_iff {G : List (Poly n)} {fuel : ℕ} {lmb : List (Mon n)} (hn : 1 ≤ n)
    (hb : Hilbert.monomialBasis (G.map F4.lead) fuel = .done lmb) :
    lmb.Pairwise OKind.drl.lt ∧ ∀ m, m ∈ lmb ↔ ∀ f ∈ G, ¬ F4.lead f ≤ m := by
  obtain ⟨h1, _, h2, _⟩ := C24_monomial_basis hn _ fuel lmb hb
  refine ⟨h1, fun m => ?_⟩
  rw [h2]
  simp [Pi.le_def]

theorem redBasis_of {p : ℕ} [hp : Fact p.Prime] {I : Ideal (MvPolynomial (Fin n) (ZMod p))} {G : List (Poly n)}
    (hG : IsReducedGroebner OKind.drl.mo I { g | ∃ f ∈ G, g = toMv p f }) (hok : ∀ f ∈ G, PolyOk .drl p f)
    (hsort : G.Pairwise fun a b => OKind.drl.lt (F4.lead a) (F4.lead b)) : RedBasis p G where
  ok := hok
  sorted := hsort
  red := by
    intro f hf g hg hne t ht hle
    have hlead : F4.lead f ≠ F4.lead g := by
      intro he
      obtain ⟨i, hi, rfl⟩ := List.mem_iff_getElem.mp hf
      obtain ⟨j, hj, rfl⟩ := List.mem_iff_getElem.mp hg
      have hw := List.pairwise_iff_getElem.mp hsort
      rcases lt_trichotomy i j with h1 | h1 | h1
      · have := hw i j hi hj h1
        rw [he] at this
        exact OKind.drl.adm.irrefl _ this
      · subst h1; exact hne rfl
      · have := hw j i hj hi h1
        rw [he] at this
        exact OKind.drl.adm.irrefl _ this
    have hmv : toMv p f ≠ toMv p g := by
      intro he
      have h1 := (hok f hf).degree
      rw [he, (hok g hg).degree, fs_inj] at h1
      exact hlead h1.symm
    refine hG.2.2 _ ⟨f, hf, rfl⟩ _ ⟨g, hg, rfl⟩ hmv (fs t.1) ?_ ?_
    · rw [mem_support_iff, toMv_coeff p f (hok f hf).sorted t ht]
      have := (hok f hf).coeff t ht
      intro h0
      rw [ZMod.natCast_eq_zero_iff] at h0
      exact absurd (Nat.le_of_dvd this.1 h0) (by omega)
    · rw [(hok g hg).degree]
      exact hle

theorem lmps_set (p : ℕ) (G : List (Poly n)) :
    { g | ∃ k ∈ List.range G.length, g = toMv p (G.getD k []) } = { g | ∃ f ∈ G, g = toMv p f } := by
  ext g
  constructor
  · rintro ⟨k, hk, rfl⟩
    exact ⟨_, getD_mem [] (List.mem_range.mp hk), rfl⟩
  · rintro ⟨f, hf, rfl⟩
    obtain ⟨k, hk, he⟩ := exists_getD [] hf
    exact ⟨k, List.mem_range.mpr hk, by rw [he]⟩

theorem mval_quot {p : ℕ} {I : Ideal (MvPolynomial (Fin n) (ZMod p))} (u : Mon n) :
    mval (fun j => Ideal.Quotient.mk I (X j)) u = Ideal.Quotient.mk I (monomial (fs u) 1) := by
  rw [mval, monomial_eq, map_one, one_mul, Finsupp.prod_fintype _ _ (fun i => pow_zero _), map_prod]
  simp only [map_pow]
  rfl

/-- The number of monomials of the basis that land on a proper multiple of a leading monomial. -/
theorem extras_ncard {G : List (Poly n)} (x : Fin n) {lmb : List (Mon n)} (hs : Stair OKind.drl.lt (G.map F4.lead) lmb) :
    (extras x (G.map F4.lead) lmb lmb.length).length =
      {m : Mon n | (∀ f ∈ G, ¬ F4.lead f ≤ m) ∧ (∃ f ∈ G, F4.lead f ≤ m + var x) ∧ ∀ f ∈ G, F4.lead f ≠ m + var x}.ncard := by
  have hmem : ∀ m, m ∈ lmb ↔ ∀ f ∈ G, ¬ F4.lead f ≤ m := by
    intro m
    rw [hs.bmem]
    simp
  have hnd : ((extras x (G.map F4.lead) lmb lmb.length).map fun i => lmb.getD i 0).Nodup := by
    unfold extras
    rw [List.nodup_map_iff_inj_on (List.Nodup.filter _ List.nodup_range)]
    intro i hi j hj he
    have hi := List.mem_range.mp (List.mem_filter.mp hi).1
    have hj := List.mem_range.mp (List.mem_filter.mp hj).1
    exact hs.idx_inj hi hj he
  rw [← List.length_map (f := fun i => lmb.getD i 0), ← List.toFinset_card_of_nodup hnd, ← Set.ncard_coe_finset]
  congr 1
  ext m
  simp only [List.coe_toFinset, List.mem_map, Set.mem_ofPred_eq, extras, List.mem_filter, List.mem_range, decide_eq_true_eq, Extra]
  constructor
  · rintro ⟨i, ⟨hi, h1, h2⟩, rfl⟩
    refine ⟨(hmem _).mp (getD_mem 0 hi), ?_, fun f hf he => h1 ⟨f, hf, he⟩⟩
    rw [hmem] at h2
    push Not at h2
    exact h2
  · rintro ⟨h1, h2, h3⟩
    obtain ⟨i, hi, rfl⟩ := exists_getD 0 ((hmem m).mpr h1)
    refine ⟨i, ⟨hi, ?_, ?_⟩, rfl⟩
    · rintro ⟨f, hf, he⟩
      exact h3 f hf he
    · rw [hmem]
      push Not
      exact h2

/-- C60: construction of the matrix of the multiplication by the variable `x` (`x_n` in the code).  `G` is the reduced
Gröbner basis of `I` as computed by F4 (C44) and `lmb` the computed monomial basis (C24); `nf` is the computation of
normal forms (C59).  No access is outside of an array, `NULL` is returned exactly if the number of normal forms needed is
larger than the threshold, and otherwise the result is the matrix of the multiplication by `x` in the quotient by `I`,
with respect to the residue classes of `lmb`. -/
theorem C60_matrix {p : ℕ} [hp : Fact p.Prime] (hp31 : p < 2 ^ 31) (hn : 1 ≤ n) {I : Ideal (MvPolynomial (Fin n) (ZMod p))}
    {G : List (Poly n)} (hG : IsReducedGroebner OKind.drl.mo I { g | ∃ f ∈ G, g = toMv p f })
    (hok : ∀ f ∈ G, PolyOk .drl p f) (hsort : G.Pairwise fun a b => OKind.drl.lt (F4.lead a) (F4.lead b))
    {fuel : ℕ} {lmb : List (Mon n)} (hb : Hilbert.monomialBasis (G.map F4.lead) fuel = .done lmb) (hne : lmb ≠ [])
    {nf : List (Poly n) → List (Option (Poly n))}
    (hnf : ∀ tbr, (∀ f ∈ tbr, InPoly p f) → NfRun .drl p G (List.range G.length) tbr (nf tbr)) (x : Fin n) (us : ℤ) :
    let t := lmb.length - (G.filter fun f => decide (F4.lead f x ≠ 0)).length
    let e := {m : Mon n | (∀ f ∈ G, ¬ F4.lead f ≤ m) ∧ (∃ f ∈ G, F4.lead f ≤ m + var x) ∧ ∀ f ∈ G, F4.lead f ≠ m + var x}.ncard
    let th := if us = 0 then 0 else if us = 1 then (t + 1) / 4 else if us = 2 then t / 2 else if us = 3 then (3 * t + 1) / 4 else t
    (th < e → build p x us G lmb nf = .error .null) ∧
    (e ≤ th → ∃ M, build p x us G lmb nf = .ok M ∧ M.ncols = lmb.length ∧
      IsMulMat (M.toMat p) (fun i => Ideal.Quotient.mk I (monomial (fs (lmb.getD i 0)) 1)) (Ideal.Quotient.mk I (X x)) ∧
      (M.triv.map Prod.fst ++ M.dense.map Prod.fst).Perm (List.range lmb.length) ∧
      (∀ q ∈ M.dense, q.2.1.length = M.ncols ∧ (∀ c ∈ q.2.1, c < p) ∧ q.2.2 ≤ M.ncols ∧
        (∀ i, M.ncols - q.2.2 ≤ i → q.2.1.getD i 0 = 0) ∧ (q.2.2 < M.ncols → q.2.1.getD (M.ncols - q.2.2 - 1) 0 ≠ 0))) := by
  intro t e th
  have hR := redBasis_of hG hok hsort
  obtain ⟨hs, hm⟩ := irr_iff hn hb
  have hS := hR.stair hs hm hne
  have hlm : ∀ k ∈ List.range G.length, k < G.length := fun k hk => List.mem_range.mp hk
  obtain ⟨h1, h2⟩ := build_spec x us hR hs hm hne (nf := nf) (by
    intro tbr htbr
    have := C59_normal_forms .drl p hp31 G hok (List.range G.length) hlm tbr htbr _ (hnf tbr htbr)
    rwa [lmps_set] at this) (fun j => Ideal.Quotient.mk I (X j)) (by
    intro f hf
    have : (aeval fun j => Ideal.Quotient.mk I (X j)) (toMv p f) = Ideal.Quotient.mk I (toMv p f) := by
      have h := (comp_aeval_apply (Ideal.Quotient.mkₐ (ZMod p) I) (toMv p f) (f := X)).symm
      rw [aeval_X_left_apply] at h
      exact h
    rw [this, Ideal.Quotient.eq_zero_iff_mem]
    exact hG.1.1 _ ⟨f, hf, rfl⟩)
  have hD : (divIdx x (G.map F4.lead)).length = (G.filter fun f => decide (F4.lead f x ≠ 0)).length := by
    have : (divIdx x (G.map F4.lead)).map (fun i => G.getD i []) = G.filter fun f => decide (F4.lead f x ≠ 0) := by
      rw [divIdx, List.length_map]
      have hmap : ∀ i ∈ List.range G.length, decide ((G.map F4.lead).getD i 0 x ≠ 0) = ((fun f => decide (F4.lead f x ≠ 0)) ∘ fun i => G.getD i []) i := by
        intro i hi
        have hi := List.mem_range.mp hi
        rw [List.getD_eq_getElem _ _ (by simpa using hi), List.getElem_map, Function.comp, List.getD_eq_getElem _ _ hi]
      rw [List.filter_congr hmap, ← List.filter_map]
      congr 1
      apply List.ext_getElem
      · simp
      · intro i hi hi'
        simp [hi']
    rw [← this, List.length_map]
  rw [extras_ncard x hS, hD] at h1 h2
  refine ⟨h1, fun hle => ?_⟩
  obtain ⟨M, hM, hOk⟩ := h2 hle
  refine ⟨M, hM, hOk.ncols, ?_, hOk.cover, ?_⟩
  · have hmv : ∀ u : Mon n, Ideal.Quotient.mk I (X x) * Ideal.Quotient.mk I (monomial (fs u) 1) =
        mval (fun j => Ideal.Quotient.mk I (X j)) (u + var x) := by
      intro u
      rw [mval_mx, mval_quot]
    constructor
    · intro q hq
      obtain ⟨a1, a2⟩ := hOk.triv q hq
      refine ⟨by rw [MMat.toMat, hOk.ncols]; exact a1, ?_⟩
      rw [hmv, a2, mval_quot]
    · intro q hq
      obtain ⟨q', hq', rfl⟩ := List.mem_map.mp hq
      obtain ⟨a1, _⟩ := hOk.dense q' hq'
      simp only
      rw [hmv, ← a1.comb, comb, MMat.toMat, hOk.ncols]
      refine Finset.sum_congr rfl fun k _ => ?_
      rw [mval_quot]
    · intro i hi
      rw [MMat.toMat, hOk.ncols] at hi
      have := hOk.cover.mem_iff.mpr (List.mem_range.mpr hi)
      rw [List.mem_append] at this
      simpa [MMat.toMat, List.map_map, Function.comp_def] using this
  · intro q hq
    obtain ⟨a1, a2⟩ := hOk.dense q hq
    rw [a2, hOk.ncols, ← a1.len]
    exact ⟨rfl, a1.red, dstOf_spec q.2.1⟩

/-- C60: the residue classes of the monomial basis are a basis of the quotient, so its dimension is the number of
columns. -/
theorem C60_basis {p : ℕ} [hp : Fact p.Prime] (hn : 1 ≤ n) {I : Ideal (MvPolynomial (Fin n) (ZMod p))}
    {G : List (Poly n)} (hG : IsReducedGroebner OKind.drl.mo I { g | ∃ f ∈ G, g = toMv p f })
    (hok : ∀ f ∈ G, PolyOk .drl p f) {fuel : ℕ} {lmb : List (Mon n)}
    (hb : Hilbert.monomialBasis (G.map F4.lead) fuel = .done lmb) :
    ∃ B : Module.Basis (Fin lmb.length) (ZMod p) (MvPolynomial (Fin n) (ZMod p) ⧸ I),
      ∀ i, B i = Ideal.Quotient.mk I (monomial (fs (lmb.getD i 0)) 1) := by
  obtain ⟨hs, hm⟩ := irr_iff hn hb
  have hinj : ∀ i j : Fin lmb.length, lmb.getD i 0 = lmb.getD j 0 → i = j := by
    intro i j he
    rcases lt_trichotomy i.val j.val with h1 | h1 | h1
    · have := getD_lt hs 0 h1 j.isLt
      rw [he] at this; exact absurd this (OKind.drl.adm.irrefl _)
    · exact Fin.ext h1
    · have := getD_lt hs 0 h1 i.isLt
      rw [he] at this; exact absurd this (OKind.drl.adm.irrefl _)
  set v : Fin lmb.length → MvPolynomial (Fin n) (ZMod p) ⧸ I := fun i => Ideal.Quotient.mk I (monomial (fs (lmb.getD i 0)) 1) with hv
  have hsm : ∀ (c : ZMod p) (f : MvPolynomial (Fin n) (ZMod p)), c • Ideal.Quotient.mk I f = Ideal.Quotient.mk I (C c * f) := by
    intro c f
    rw [← MvPolynomial.smul_eq_C_mul]
    rfl
  have hlin : LinearIndependent (ZMod p) v := by
    rw [Fintype.linearIndependent_iff]
    intro c hc
    set f := ∑ i : Fin lmb.length, monomial (fs (lmb.getD i 0)) (c i) with hf
    have hfI : f ∈ I := by
      rw [← Ideal.Quotient.eq_zero_iff_mem, hf, map_sum, ← hc]
      refine Finset.sum_congr rfl fun i _ => ?_
      rw [hv, hsm, C_mul_monomial, mul_one]
    have hcoef : ∀ i : Fin lmb.length, coeff (fs (lmb.getD i 0)) f = c i := by
      intro i
      rw [hf, coeff_sum, Finset.sum_eq_single i]
      · rw [coeff_monomial, if_pos rfl]
      · intro j _ hj
        rw [coeff_monomial, if_neg]
        intro he
        exact hj (hinj j i (fs_inj.mp he))
      · simp
    have hf0 : f = 0 := by
      by_contra hne
      obtain ⟨g, ⟨g', hg', rfl⟩, _, hle⟩ := hG.1.2 f hfI hne
      have hd := OKind.drl.mo.degree_mem_support hne
      obtain ⟨u, hu⟩ := fs_surj (OKind.drl.mo.degree f)
      rw [← hu, mem_support_iff] at hd
      have hul : u ∈ lmb := by
        by_contra hnot
        apply hd
        rw [hf, coeff_sum]
        refine Finset.sum_eq_zero fun i _ => ?_
        rw [coeff_monomial, if_neg]
        intro he
        rw [fs_inj] at he
        exact hnot (he ▸ getD_mem 0 i.isLt)
      rw [(hok g' hg').degree, ← hu] at hle
      exact (hm u).mp hul g' hg' hle
    intro i
    rw [← hcoef i, hf0, coeff_zero]
  have hspan : ⊤ ≤ Submodule.span (ZMod p) (Set.range v) := by
    intro a _
    obtain ⟨f, rfl⟩ := Ideal.Quotient.mk_surjective a
    obtain ⟨g, r, hfr, _, hr⟩ := OKind.drl.mo.div_set (B := { g | ∃ f ∈ G, g = toMv p f }) (by
      rintro _ ⟨f, hf, rfl⟩
      rw [(hok f hf).monic]
      exact isUnit_one) f
    have hmk : Ideal.Quotient.mk I f = Ideal.Quotient.mk I r := by
      rw [Ideal.Quotient.eq, hfr, add_sub_cancel_right, Finsupp.linearCombination_apply, Finsupp.sum]
      apply Ideal.sum_mem
      intro b _
      exact Ideal.mul_mem_left _ _ (hG.1.1 _ b.2)
    rw [hmk, r.as_sum, map_sum]
    apply Submodule.sum_mem
    intro d hd
    obtain ⟨u, rfl⟩ := fs_surj d
    have hul : u ∈ lmb := by
      rw [hm]
      intro f hf hle
      exact hr _ hd (toMv p f) ⟨f, hf, rfl⟩ (by rw [(hok f hf).degree]; exact hle)
    obtain ⟨i, hi, he⟩ := exists_getD 0 hul
    have : Ideal.Quotient.mk I (monomial (fs u) (coeff (fs u) r)) = coeff (fs u) r • v ⟨i, hi⟩ := by
      rw [hv, hsm, C_mul_monomial, mul_one, he]
    rw [this]
    exact Submodule.smul_mem _ _ (Submodule.subset_span ⟨_, rfl⟩)
  refine ⟨Module.Basis.mk hlin hspan, fun i => ?_⟩
  rw [Module.Basis.mk_apply]

/-- C60 with C46: the product of the matrix built with a vector of values of a linear form, as computed by the AVX2 code,
is the vector of values at the multiples by `x`, for the moduli the solver draws. -/
theorem C60_product {p : ℕ} [hp : Fact p.Prime] (hp30 : p ≤ 1518500249) (hn : 1 ≤ n)
    {I : Ideal (MvPolynomial (Fin n) (ZMod p))} {G : List (Poly n)}
    (hG : IsReducedGroebner OKind.drl.mo I { g | ∃ f ∈ G, g = toMv p f })
    (hok : ∀ f ∈ G, PolyOk .drl p f) (hsort : G.Pairwise fun a b => OKind.drl.lt (F4.lead a) (F4.lead b))
    {fuel : ℕ} {lmb : List (Mon n)} (hb : Hilbert.monomialBasis (G.map F4.lead) fuel = .done lmb) (hne : lmb ≠ [])
    (h32 : lmb.length < 2 ^ 32) {nf : List (Poly n) → List (Option (Poly n))}
    (hnf : ∀ tbr, (∀ f ∈ tbr, InPoly p f) → NfRun .drl p G (List.range G.length) tbr (nf tbr)) {x : Fin n} {us : ℤ} {M : MMat}
    (hM : build p x us G lmb nf = .ok M) (l : (MvPolynomial (Fin n) (ZMod p) ⧸ I) →ₗ[ZMod p] ZMod p) (vec res : ℕ → ℕ)
    (hvec : ∀ k, k < lmb.length → vec k < p ∧ (vec k : ZMod p) = l (Ideal.Quotient.mk I (monomial (fs (lmb.getD k 0)) 1)))
    (i : ℕ) (hi : i < lmb.length) :
    (MatVec.multVec p M.toSp vec res i : ZMod p) =
      l (Ideal.Quotient.mk I (X x) * Ideal.Quotient.mk I (monomial (fs (lmb.getD i 0)) 1)) := by
  obtain ⟨c1, c2⟩ := C60_matrix (by omega : p < 2 ^ 31) hn hG hok hsort hb hne hnf x us
  obtain ⟨M', hM', m1, m2, m3, m4⟩ := c2 (by
    by_contra hlt
    rw [c1 (by omega)] at hM
    exact absurd hM (by simp))
  rw [hM] at hM'
  obtain rfl : M = M' := by injection hM'
  have hidx : (M.toSp.triv.map (fun t => t.1) ++ M.toSp.dense.map (fun d => d.1)).Perm (List.range lmb.length) := by
    simpa [MMat.toSp, List.map_map, Function.comp_def] using m3
  obtain ⟨h1, h2⟩ := C46_multiplication_partial p hp.out.pos hp30 M.toSp vec res (by rw [MMat.toSp, m1]; exact h32)
    (by intro k hk; rw [MMat.toSp, m1] at hk; exact (hvec k hk).1)
    (by
      intro t ht
      exact (m2.triv t ht).1)
    (by
      intro d hd
      obtain ⟨q, hq, rfl⟩ := List.mem_map.mp hd
      obtain ⟨b1, b2, b3, b4, _⟩ := m4 q hq
      refine ⟨fun k hk => b2 _ (getD_mem 0 (by rw [b1]; exact hk)), b3, fun k hk _ => b4 k hk⟩)
    (hidx.nodup_iff.mpr List.nodup_range)
  have hsum : ∀ f : ℕ → ℕ, (((∑ k ∈ Finset.range M.ncols, f k * vec k) % p : ℕ) : ZMod p) =
      ∑ k ∈ Finset.range M.ncols, (f k : ZMod p) * l (Ideal.Quotient.mk I (monomial (fs (lmb.getD k 0)) 1)) := by
    intro f
    rw [ZMod.natCast_mod, Nat.cast_sum]
    refine Finset.sum_congr rfl fun k hk => ?_
    rw [m1, Finset.mem_range] at hk
    rw [Nat.cast_mul, (hvec k hk).2]
  have hmem := hidx.mem_iff.mpr (List.mem_range.mpr hi)
  rcases List.mem_append.mp hmem with hm | hm
  · obtain ⟨q, hq, rfl⟩ := List.mem_map.mp hm
    obtain ⟨t1, t2⟩ := m2.triv q hq
    have t1 : q.2 < M.ncols := t1
    rw [h1 q hq, t2]
    show (((∑ k ∈ Finset.range M.ncols, (if k = q.2 then 1 else 0) * vec k) % p : ℕ) : ZMod p) = _
    rw [hsum, Finset.sum_eq_single q.2]
    · simp
    · intro k _ hk
      simp [hk]
    · intro hq
      exact absurd (Finset.mem_range.mpr t1) hq
  · obtain ⟨d, hd, rfl⟩ := List.mem_map.mp hm
    obtain ⟨q, hq, rfl⟩ := List.mem_map.mp hd
    have t2 := m2.dense (q.1, fun k => ((q.2.1.getD k 0 : ℕ) : ZMod p)) (List.mem_map.mpr ⟨q, hq, rfl⟩)
    rw [h2 _ hd]
    simp only at t2 ⊢
    rw [t2, map_sum]
    show (((∑ k ∈ Finset.range M.ncols, q.2.1.getD k 0 * vec k) % p : ℕ) : ZMod p) = _
    rw [hsum]
    refine Finset.sum_congr rfl fun k _ => ?_
    rw [map_smul, smul_eq_mul]

/-! ### The hypotheses are met -/

/-- The matrix for `x1^2 - 1`, `x0^2 - 2` modulo 101 (not generic): one row is from the basis, one is a normal form. -/
example : build 101 (1 : Fin 2) 3 [[(![0, 2], 1), (![0, 0], 100)], [(![2, 0], 1), (![0, 0], 99)]]
    [![0, 0], ![0, 1], ![1, 0], ![1, 1]] (fun _ => [some [(![1, 0], 1)]]) =
    .ok ⟨4, [(0, 1), (2, 3)], [(1, [1, 0, 0, 0], 3), (3, [0, 0, 1, 0], 1)]⟩ := by
  rfl

example : build 101 (1 : Fin 2) 0 [[(![0, 2], 1), (![0, 0], 100)], [(![2, 0], 1), (![0, 0], 99)]]
    [![0, 0], ![0, 1], ![1, 0], ![1, 1]] (fun _ => [some [(![1, 0], 1)]]) = .error .null := by
  rfl

theorem exc1 : ((34 : ZMod 101) * ((1 : ℕ) : ZMod 101)) = -(67 * ((1 : ℕ) : ZMod 101)) := by decide
theorem exc2 : ((34 : ZMod 101) * ((3 : ℕ) : ZMod 101)) = ((1 : ℕ) : ZMod 101) := by decide
theorem exc3 : ((67 : ZMod 101) * ((5 : ℕ) : ZMod 101)) = ((32 : ℕ) : ZMod 101) := by decide
theorem exc4 : (34 : ZMod 101) ^ 2 + 3 * 86 = 0 := by decide
theorem exc5 : (34 : ZMod 101) * 86 + 5 = 0 := by decide

/-- For every result of F4 for `x^2 + 3 y`, `x y + 5` modulo 101 the monomial basis is computed and is not empty, and there
is a computation of normal forms. -/
theorem exF_staircase {s : St 2} {G : List (Poly 2)} (hs : Reach (stdCfg .drl 101 1) exF s) (hd : done s)
    (hfin : Final (stdCfg .drl 101 1) s G) :
    (∃ fuel lmb, Hilbert.monomialBasis (G.map F4.lead) fuel = .done lmb ∧ lmb ≠ []) ∧
    ∃ nf : List (Poly 2) → List (Option (Poly 2)),
      ∀ tbr, (∀ f ∈ tbr, InPoly 101 f) → NfRun .drl 101 G (List.range G.length) tbr (nf tbr) := by
  have hp : Fact (Nat.Prime 101) := ⟨by norm_num⟩
  obtain ⟨hG, hok, hsort⟩ := (C44_reduced (C := stdCfg .drl 101 1) (stdCfg_ok _ (by norm_num) (by norm_num) (by norm_num)) exF_ok).2 s G hs
    hd hfin
  have hG : IsReducedGroebner OKind.drl.mo (Ideal.span { g | ∃ f ∈ exF, g = toMv 101 f }) { g | ∃ f ∈ G, g = toMv 101 f } := hG
  have hok : ∀ f ∈ G, PolyOk .drl 101 f := hok
  constructor
  · set I := Ideal.span { g | ∃ f ∈ exF, g = toMv 101 f } with hI
    have hdiv : ∀ f : Poly 2, PolyOk .drl 101 f → toMv 101 f ∈ I → ∃ g ∈ G, F4.lead g ≤ F4.lead f := by
      intro f hf hfI
      have h0 : toMv 101 f ≠ 0 := by
        intro h0
        have := hf.monic
        rw [h0, MonomialOrder.leadingCoeff_zero] at this
        exact zero_ne_one this
      obtain ⟨_, ⟨g, hg, rfl⟩, _, hle⟩ := hG.1.2 _ hfI h0
      rw [(hok g hg).degree, hf.degree] at hle
      exact ⟨g, hg, hle⟩
    obtain ⟨g1, hg1, hl1⟩ := hdiv [(![2, 0], 1), (![0, 1], 3)] (exF_ok _ (by simp [exF])) (Ideal.subset_span ⟨_, by simp [exF], rfl⟩)
    obtain ⟨g2, hg2, hl2⟩ := hdiv [(![0, 2], 1), (![1, 0], 32)] (by
      refine ⟨⟨_, rfl⟩, ?_, by decide⟩
      simp only [OKind.lt, Drl, DrlOn]
      decide) (by
      have e : toMv 101 ([(![0, 2], 1), (![1, 0], 32)] : Poly 2) =
          monomial (fs ![0, 1]) 34 * toMv 101 ([(![2, 0], 1), (![0, 1], 3)] : Poly 2) +
          monomial (fs ![1, 0]) 67 * toMv 101 ([(![1, 1], 1), (![0, 0], 5)] : Poly 2) := by
        simp only [toMv, List.map_cons, List.map_nil, List.sum_cons, List.sum_nil, add_zero, mul_add, monomial_mul, ← fs_add]
        have e1 : (![0, 1] + ![2, 0] : Mon 2) = ![2, 1] := by decide
        have e2 : (![0, 1] + ![0, 1] : Mon 2) = ![0, 2] := by decide
        have e3 : (![1, 0] + ![1, 1] : Mon 2) = ![2, 1] := by decide
        have e4 : (![1, 0] + ![0, 0] : Mon 2) = ![1, 0] := by decide
        rw [e1, e2, e3, e4]
        rw [exc1, exc2, exc3, map_neg]
        ring
      rw [e]
      exact I.add_mem (I.mul_mem_left _ (Ideal.subset_span ⟨_, by simp [exF], rfl⟩))
        (I.mul_mem_left _ (Ideal.subset_span ⟨_, by simp [exF], rfl⟩)))
    have hfinite : {m : Fin 2 → ℕ | ∀ l ∈ G.map F4.lead, ¬ ∀ i, l i ≤ m i}.Finite := by
      apply Set.Finite.subset (Set.finite_Icc (0 : Fin 2 → ℕ) (![2, 2] : Fin 2 → ℕ))
      intro m hm
      have hm1 : ¬ F4.lead g1 ≤ m := fun hle => hm _ (List.mem_map_of_mem hg1) hle
      have hm2 : ¬ F4.lead g2 ≤ m := fun hle => hm _ (List.mem_map_of_mem hg2) hle
      have a1 : ¬ (![2, 0] : Mon 2) ≤ m := fun h => hm1 (hl1.trans h)
      have a2 : ¬ (![0, 2] : Mon 2) ≤ m := fun h => hm2 (hl2.trans h)
      rw [Set.mem_Icc]
      refine ⟨fun i => Nat.zero_le _, ?_⟩
      rw [Pi.le_def, Fin.forall_fin_two]
      rw [Pi.le_def, Fin.forall_fin_two] at a1 a2
      simp at a1 a2 ⊢
      omega
    obtain ⟨D, hD⟩ := (C24_termination (by norm_num : 1 ≤ 2) (G.map F4.lead)).1 hfinite
    obtain ⟨lmb, hlmb⟩ := hD D le_rfl
    refine ⟨D, lmb, hlmb, ?_⟩
    obtain ⟨_, hm⟩ := irr_iff (by norm_num) hlmb
    have : (0 : Mon 2) ∈ lmb := by
      rw [hm]
      intro f hf hle
      have hz : ∀ g ∈ I, eval (![34, 86] : Fin 2 → ZMod 101) g = 0 := by
        intro g hg
        have : I ≤ RingHom.ker (eval (![34, 86] : Fin 2 → ZMod 101)) := by
          rw [hI, Ideal.span_le]
          rintro _ ⟨f, hf, rfl⟩
          simp only [exF, List.mem_cons, List.not_mem_nil, or_false] at hf
          rcases hf with rfl | rfl
          · simp [toMv, RingHom.mem_ker, eval_monomial, Finsupp.prod_fintype]
            exact exc4
          · simp [toMv, RingHom.mem_ker, eval_monomial, Finsupp.prod_fintype]
            exact exc5
        exact this hg
      have h0 : F4.lead f = 0 := le_antisymm hle (fun i => Nat.zero_le _)
      obtain ⟨t, ht⟩ := (hok f hf).head
      have hsrt := (hok f hf).sorted
      rw [ht, List.map_cons, List.pairwise_cons] at hsrt
      have ht0 : t = [] := by
        cases t with
        | nil => rfl
        | cons a t =>
          have := hsrt.1 a.1 (by simp)
          rw [h0] at this
          exact absurd this (le_of_lt (fun i => Nat.zero_le _))
      have := hz _ (hG.1.1 _ ⟨f, hf, rfl⟩)
      rw [ht, ht0, h0] at this
      simp [toMv, fs_zero] at this
    intro h0
    rw [h0] at this
    simp at this
  · have hex : ∀ tbr, (∀ f ∈ tbr, InPoly 101 f) → ∃ N, NfRun .drl 101 G (List.range G.length) tbr N := by
      intro tbr htbr
      exact (C59_terminates .drl 101 hp.out (by norm_num) G hok (List.range G.length) (fun k hk => List.mem_range.mp hk) tbr htbr).2.1
    classical
    refine ⟨fun tbr => if h : ∀ f ∈ tbr, InPoly 101 f then (hex tbr h).choose else [], fun tbr htbr => ?_⟩
    simp only [dif_pos htbr]
    exact (hex tbr htbr).choose_spec

end Verif.Props
