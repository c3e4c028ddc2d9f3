import Verif.RandomShape
import Verif.SolveUb
import Verif.Spec.Stair
import Verif.ShapeQ
import Verif.Props.SolveRandom

namespace Verif.Props
namespace Solve

open Verif.F4 Verif.Pairs Verif.Spec Verif.MulMatrix Verif.Fglm Verif.BM Verif.Hankel Verif.LinForms Verif.VarOrder Verif.Output Verif.Solve
open Verif.Groebner Verif.ExportF4 Verif.Spec.Solutions
open Verif.Spec.Output (readOutput Tree)
open Verif.Spec.Text (File)
open Verif.Parse (ffPoly)
open Verif.Props.EndToEnd (InputOk inputIdeal read_file)
open MvPolynomial

variable {n : ℕ}

theorem fs_var (m : Mon n) (x : Fin n) : F4.fs m + Finsupp.single x 1 = F4.fs (m + Spec.var x) := by
  ext i
  by_cases h : i = x
  · subst h
    simp [Spec.var]
  · simp [Spec.var, h]

theorem fs_ncard (S : Set (Fin n →₀ ℕ)) : S.ncard = {m : Mon n | F4.fs m ∈ S}.ncard := by
  symm
  refine Set.ncard_congr (fun m _ => F4.fs m) (fun m hm => hm) (fun a b _ _ h => F4.fs_inj.mp h) ?_
  intro m hm
  exact ⟨m, by
    have : F4.fs (m : Mon n) = m := by ext i; rfl
    rwa [Set.mem_ofPred_eq, this], by ext i; rfl⟩

section Stair
variable {p : ℕ} [hp : Fact p.Prime] {I : Ideal (MvPolynomial (Fin n) (ZMod p))} {G : List (Poly n)}
  (hG : IsReducedGroebner OKind.drl.mo I {g | ∃ f ∈ G, g = toMv p f}) (hok : ∀ f ∈ G, PolyOk .drl p f)
  (hsort : G.Pairwise fun a b => OKind.drl.lt (F4.lead a) (F4.lead b))
include hG hok

theorem standard_iff (m : Mon n) : Standard OKind.drl.mo I (F4.fs m) ↔ ∀ f ∈ G, ¬ F4.lead f ≤ m := (irr_ideal hG hok m).symm

include hsort

theorem corner_iff (m : Mon n) : Corner OKind.drl.mo I (F4.fs m) ↔ ∃ f ∈ G, F4.lead f = m := by
  have hR := redBasis_of hG hok hsort
  unfold Corner
  rw [standard_iff hG hok]
  constructor
  · rintro ⟨h1, h2⟩
    push Not at h1
    obtain ⟨f, hf, hle⟩ := h1
    refine ⟨f, hf, ?_⟩
    by_contra hne
    have := h2 (F4.fs (F4.lead f)) hle (fun h => hne (F4.fs_inj.mp h))
    rw [standard_iff hG hok] at this
    exact this f hf le_rfl
  · rintro ⟨f, hf, rfl⟩
    refine ⟨fun h => h f hf le_rfl, ?_⟩
    intro m' hle hne
    obtain ⟨m, rfl⟩ : ∃ m : Mon n, m' = F4.fs m := ⟨m', by ext i; rfl⟩
    rw [standard_iff hG hok]
    intro f' hf' hle'
    have hle : m ≤ F4.lead f := fun i => hle i
    have hff : f ≠ f' := by
      rintro rfl
      exact hne (congrArg F4.fs (le_antisymm hle hle'))
    obtain ⟨t, ht⟩ := (hok f hf).head
    exact hR.red f hf f' hf' hff (F4.lead f, 1) (by rw [ht]; exact List.mem_cons_self) (hle'.trans hle)

theorem steps_ncard (x : Fin n) : (steps OKind.drl.mo I x).ncard =
    {m : Mon n | (∀ f ∈ G, ¬ F4.lead f ≤ m) ∧ (∃ f ∈ G, F4.lead f ≤ m + Spec.var x) ∧ ∀ f ∈ G, F4.lead f ≠ m + Spec.var x}.ncard := by
  rw [fs_ncard]
  congr 1
  ext m
  simp only [steps, Set.mem_ofPred_eq, fs_var, standard_iff hG hok, corner_iff hG hok hsort]
  push Not
  rfl

theorem corners_ncard (x : Fin n) : {m | Corner OKind.drl.mo I m ∧ m x ≠ 0}.ncard = (G.filter fun f => decide (F4.lead f x ≠ 0)).length := by
  rw [fs_ncard]
  have hnd : ((G.filter fun f => decide (F4.lead f x ≠ 0)).map F4.lead).Nodup := by
    have h1 : (G.map F4.lead).Pairwise OKind.drl.lt := List.pairwise_map.mpr hsort
    refine List.Nodup.sublist (List.Sublist.map _ List.filter_sublist) (h1.imp ?_)
    rintro a b hab rfl
    exact OKind.drl.adm.irrefl _ hab
  rw [← List.length_map (f := F4.lead), ← List.toFinset_card_of_nodup hnd, ← Set.ncard_coe_finset]
  congr 1
  ext m
  simp only [Set.mem_ofPred_eq, corner_iff hG hok hsort, Finset.mem_coe, List.mem_toFinset, List.mem_map, List.mem_filter, decide_eq_true_eq]
  constructor
  · rintro ⟨⟨f, hf, rfl⟩, hx⟩
    exact ⟨f, ⟨hf, hx⟩, rfl⟩
  · rintro ⟨f, ⟨hf, hx⟩, rfl⟩
    exact ⟨⟨f, hf, rfl⟩, hx⟩

theorem stair_iff {fuel : ℕ} {lmb : List (Mon n)} (hn : 1 ≤ n) (hb : Hilbert.monomialBasis (G.map F4.lead) fuel = .done lmb) (x : Fin n) (us : ℤ) :
    StairOk us OKind.drl.mo I x ↔
    {m : Mon n | (∀ f ∈ G, ¬ F4.lead f ≤ m) ∧ (∃ f ∈ G, F4.lead f ≤ m + Spec.var x) ∧ ∀ f ∈ G, F4.lead f ≠ m + Spec.var x}.ncard ≤
      allowed us (lmb.length - (G.filter fun f => decide (F4.lead f x ≠ 0)).length) := by
  obtain ⟨B, -⟩ := C60_basis hn hG hok hb
  rw [StairOk, steps_ncard hG hok hsort, corners_ncard hG hok hsort, Module.finrank_eq_card_basis B, Fintype.card_fin]

/-- Without a limit the staircase is always accepted. -/
theorem stair_all (hn : 1 ≤ n) {fuel : ℕ} {lmb : List (Mon n)}
    (hb : Hilbert.monomialBasis (G.map F4.lead) fuel = .done lmb) (x : Fin n) {us : ℤ} (hus : us < 0 ∨ 3 < us) :
    StairOk us OKind.drl.mo I x := by
  have hR := redBasis_of hG hok hsort
  obtain ⟨hsrt, hm⟩ := irr_iff hn hb
  rw [stair_iff hG hok hsort hn hb]
  have ha : ∀ t, allowed us t = t := by
    intro t
    unfold allowed
    rw [if_neg (by omega), if_neg (by omega), if_neg (by omega), if_neg (by omega)]
  rw [ha, ← corners_ncard hG hok hsort, fs_ncard]
  have hnd : lmb.Nodup := hsrt.imp fun hab => by
    rintro rfl
    exact OKind.drl.adm.irrefl _ hab
  set E := {m : Mon n | (∀ f ∈ G, ¬ F4.lead f ≤ m) ∧ (∃ f ∈ G, F4.lead f ≤ m + Spec.var x) ∧ ∀ f ∈ G, F4.lead f ≠ m + Spec.var x} with hE
  set C' := {m : Mon n | F4.fs m ∈ {m | Corner OKind.drl.mo I m ∧ m x ≠ 0}} with hC
  have hCm : ∀ m, m ∈ C' ↔ (∃ f ∈ G, F4.lead f = m) ∧ m x ≠ 0 := by
    intro m
    rw [hC, Set.mem_ofPred_eq, Set.mem_ofPred_eq, corner_iff hG hok hsort]
    rfl
  have hadd : ∀ m, m ∈ C' → m - Spec.var x + Spec.var x = m := by
    intro m hmc
    have := ((hCm m).mp hmc).2
    funext i
    by_cases hi : i = x
    · subst hi
      simp [Spec.var]
      omega
    · simp [Spec.var, hi]
  have hCi : ((fun m => m - Spec.var x) '' C').ncard = C'.ncard := by
    refine Set.ncard_image_of_injOn ?_
    intro a ha b hb hab
    rw [← hadd a ha, ← hadd b hb]
    exact congrArg (· + Spec.var x) hab
  have hsub : E ∪ (fun m => m - Spec.var x) '' C' ⊆ (lmb.toFinset : Set (Mon n)) := by
    rintro m (h | ⟨m', h, rfl⟩)
    · rw [Finset.mem_coe, List.mem_toFinset, hm]
      exact h.1
    · rw [Finset.mem_coe, List.mem_toFinset, hm, ← standard_iff hG hok]
      have hc : Corner OKind.drl.mo I (F4.fs m') := (show _ ∧ _ from h).1
      refine hc.2 _ (fun i => Nat.sub_le _ _) (fun h0 => ?_)
      have h1 := congrFun (F4.fs_inj.mp h0) x
      have h2 := ((hCm m').mp h).2
      simp [Spec.var] at h1
      omega
  have hdis : Disjoint E ((fun m => m - Spec.var x) '' C') := by
    rw [Set.disjoint_left]
    rintro m h ⟨m', h', rfl⟩
    obtain ⟨⟨f, hf, he⟩, -⟩ := (hCm m').mp h'
    refine h.2.2 f hf ?_
    simp only
    rw [hadd m' h', he]
  have hfinl : (lmb.toFinset : Set (Mon n)).Finite := Finset.finite_toSet _
  have h1 := Set.ncard_union_eq hdis (hfinl.subset (Set.subset_union_left.trans hsub)) (hfinl.subset (Set.subset_union_right.trans hsub))
  have h2 := Set.ncard_le_ncard hsub hfinl
  rw [h1, hCi, Set.ncard_coe_finset, List.toFinset_card_of_nodup hnd] at h2
  omega

end Stair


theorem shape_minpoly {K : Type*} [Field K] {I : Ideal (MvPolynomial (Fin n) K)} {last : Fin n} {w : Polynomial K} {c : Fin n → Polynomial K}
    (hS : Shape I last w c) : minpoly K (Ideal.Quotient.mk I (X last)) = w := by
  have hfin := hS.finrank.1
  have hev : ∀ f : Polynomial K, Polynomial.aeval (Ideal.Quotient.mk I (X last)) f = Ideal.Quotient.mk I (Polynomial.aeval (X last) f) := fun f =>
    Polynomial.aeval_algHom_apply (Ideal.Quotient.mkₐ K I) (X last) f
  have hm : (minpoly K (Ideal.Quotient.mk I (X last))).Monic := minpoly.monic (Algebra.IsIntegral.isIntegral _)
  refine Polynomial.eq_of_monic_of_associated hm hS.monic (associated_of_dvd_dvd (minpoly.dvd K _ ?_) (hS.dvd ?_))
  · rw [hev, Ideal.Quotient.eq_zero_iff_mem]
    exact hS.w_mem
  · rw [← Ideal.Quotient.eq_zero_iff_mem, ← hev, minpoly.aeval]

theorem getD_cast (l : List ℕ) (i : ℕ) : (l.map fun c : ℕ => (c : ℤ)).getD i 0 = ((l.getD i 0 : ℕ) : ℤ) := by
  rw [List.getD_eq_getElem?_getD, List.getElem?_map, List.getD_eq_getElem?_getD]
  cases l[i]? <;> rfl

/-- The monomial basis is computed. -/
theorem basis_done {p : ℕ} [hp : Fact p.Prime] {I : Ideal (MvPolynomial (Fin n) (ZMod p))} (hn : 1 ≤ n) {G : List (Poly n)}
    (hG : IsReducedGroebner OKind.drl.mo I {g | ∃ f ∈ G, g = toMv p f}) (hok : ∀ f ∈ G, PolyOk .drl p f)
    (hfin : Module.Finite (ZMod p) (MvPolynomial (Fin n) (ZMod p) ⧸ I)) :
    ∃ (fuel : ℕ) (lmb : List (Mon n)), Hilbert.monomialBasis (G.map F4.lead) fuel = .done lmb := by
  by_contra hno
  refine not_finite hG hok ?_ hfin
  intro hfinite
  obtain ⟨D, hD⟩ := (C24_termination hn (G.map F4.lead)).1 (by
    refine hfinite.subset ?_
    intro m hm f hf hle
    exact hm _ (List.mem_map_of_mem hf) hle)
  obtain ⟨lmb, hb⟩ := hD D le_rfl
  exact hno ⟨_, lmb, hb⟩

/-- Every execution behind the computation of the matrix ends with the parametrization. -/
theorem shape_fglm {p : ℕ} [hp : Fact p.Prime] (hp31 : p < 2 ^ 31) (hn : 1 ≤ n) {I : Ideal (MvPolynomial (Fin n) (ZMod p))} {last : Fin n}
    (hlast : last.val = n - 1) {w : Polynomial (ZMod p)} {c : Fin n → Polynomial (ZMod p)} (hS : Shape I last w c) (hsq : Squarefree w)
    {G : List (Poly n)} (hG : IsReducedGroebner OKind.drl.mo I {g | ∃ f ∈ G, g = toMv p f}) (hok : ∀ f ∈ G, PolyOk .drl p f)
    (hsort : G.Pairwise fun a b => OKind.drl.lt (F4.lead a) (F4.lead b)) {fuel : ℕ} {lmb : List (Mon n)}
    (hb : Hilbert.monomialBasis (G.map F4.lead) fuel = .done lmb) (h0mem : (0 : Mon n) ∈ lmb)
    {nf : List (Poly n) → List (Option (Poly n))}
    (hnf : ∀ tbr, (∀ f ∈ tbr, InPoly p f) → NfRun .drl p G (List.range G.length) tbr (nf tbr)) {us : ℤ} {M : MMat}
    (hM : build p last us G lmb nf = .ok M) (B : Module.Basis (Fin lmb.length) (ZMod p) (MvPolynomial (Fin n) (ZMod p) ⧸ I))
    (hB : ∀ i, B i = Ideal.Quotient.mk I (monomial (F4.fs (lmb.getD i 0)) 1)) (ev0 : ℕ → ℕ) {vecinit : ℕ → ZMod p}
    (hv1 : IsMinPoly w (lseq (formOf B fun i : Fin lmb.length => vecinit i) (Ideal.Quotient.mk I (X last)) 1))
    (hv2 : ¬ ∃ c : ℕ → ZMod p, Regular (lseq (formOf B fun i : Fin lmb.length => vecinit i) (Ideal.Quotient.mk I (X last)) 1) lmb.length ∧
      (∀ t, t < lmb.length → hmul (lseq (formOf B fun i : Fin lmb.length => vecinit i) (Ideal.Quotient.mk I (X last)) 1) lmb.length c t =
        if t = 0 then 1 else 0) ∧ c (lmb.length - 1) = 0)
    (vvec : ℕ → ZMod p) {hg : Polynomial (ZMod p) → Polynomial (ZMod p) → HM (ZMod p)} (hhg : HgcdOk hg) :
    let P := fun i => fieldPoly p (G.getD i [])
    let V := minPoly hg ((M.toMat p).pts vecinit vvec) lmb.length
    let lv := linVars n G.length (fun i j => Orders.ext (Spec.lead (P i)) j)
    V = w ∧ ∀ (sqf : List (Polynomial (ZMod p) × ℕ))
      (xg : Polynomial (ZMod p) → Polynomial (ZMod p) → Polynomial (ZMod p) × Polynomial (ZMod p) × Polynomial (ZMod p)) (lam : ℕ → ZMod p) (chk : Bool),
      SqfOk V sqf → ∃ cs, fglm lv.2 lv.1 (rows slotCheck n (fun j => (P j).map fun t => (Orders.setEv n 0 (Orders.ext t.1) ev0, t.2)) lv.1)
            (squVars lmb) ((M.toMat p).res vecinit vvec) ((M.toMat p).resSq vecinit vvec) (invert hg ((M.toMat p).pts vecinit vvec) lmb.length)
            V (sqfPart V lmb.length sqf) xg lam n lmb.length chk = some (.ok lmb.length w cs) ∧ ∀ k : Fin n, k ≠ last → w ∣ cs k - c k := by
  intro P V lv
  have hfinite : Module.Finite (ZMod p) (MvPolynomial (Fin n) (ZMod p) ⧸ I) := Module.Finite.of_basis B
  have hfin : Module.finrank (ZMod p) (MvPolynomial (Fin n) (ZMod p) ⧸ I) = lmb.length := by
    rw [Module.finrank_eq_card_basis B, Fintype.card_fin]
  have hwd : w.natDegree = lmb.length := hS.finrank.2.symm.trans hfin
  have hne : lmb ≠ [] := List.ne_nil_of_mem h0mem
  have hpos : 0 < lmb.length := List.length_pos_iff.mpr hne
  obtain ⟨hsrt, -⟩ := irr_iff hn hb
  obtain ⟨c1, c2⟩ := C60_matrix hp31 hn hG hok hsort hb hne hnf last us
  obtain ⟨M', hM', hnc, m2, _⟩ := c2 (by
    by_contra hlt
    rw [c1 (by omega)] at hM
    exact absurd hM (by simp))
  rw [hM] at hM'
  obtain rfl : M = M' := by injection hM'
  generalize hl : formOf B (fun i : Fin lmb.length => vecinit i) = l at hv1 hv2
  have hlv : ∀ k, k < (M.toMat p).ncols → vecinit k = l (Ideal.Quotient.mk I (monomial (F4.fs (lmb.getD k 0)) 1)) := by
    intro k hk
    have hk : k < lmb.length := by rw [← hnc]; exact hk
    have := hB ⟨k, hk⟩
    rw [show ((⟨k, hk⟩ : Fin lmb.length) : ℕ) = k from rfl] at this
    rw [← this, ← hl, formOf, Module.Basis.constr_basis]
  have hb0 : lmb.getD 0 0 = 0 := by
    obtain ⟨q, hq, he⟩ := List.mem_iff_getElem.mp h0mem
    have : q = 0 := by
      by_contra hne
      have h2 := List.pairwise_iff_getElem.mp hsrt 0 q hpos hq (by omega)
      rw [he] at h2
      by_cases h3 : lmb[0] = 0
      · rw [h3] at h2
        exact OKind.drl.adm.irrefl _ h2
      · exact OKind.drl.adm.irrefl _ (OKind.drl.adm.trans _ _ _ (OKind.drl.adm.one_lt _ h3) h2)
    subst this
    rw [List.getD_eq_getElem?_getD, List.getElem?_eq_getElem hq, he]
    rfl
  have hseq : (fun i => (M.toMat p).res vecinit vvec i 0) = lseq l (Ideal.Quotient.mk I (X last)) 1 := by
    have := res_eq m2 l hlv vvec 0 (Or.inl ⟨rfl, by change 0 < M.ncols; omega⟩)
    rw [this, if_pos rfl, hb0, show F4.fs (0 : Mon n) = 0 by ext i; rfl, monomial_zero', C_1, map_one]
  have hpl : ((M.toMat p).pts vecinit vvec).length = 2 * lmb.length := by
    rw [pts_length, ← hnc]
    rfl
  have hpg : ∀ i, i < 2 * lmb.length → ((M.toMat p).pts vecinit vvec).getD i 0 = lseq l (Ideal.Quotient.mk I (X last)) 1 i := by
    intro i hi
    exact pts_getD hseq i (by change i < 2 * M.ncols; omega)
  obtain ⟨hmin, hle⟩ := minPoly_seq hhg hfin hpl hpg
  have hVeq : elimPoly hg ((M.toMat p).pts vecinit vvec) lmb.length = w :=
    Polynomial.eq_of_monic_of_associated hmin.1 hv1.1 (associated_of_dvd_dvd (hmin.2.2 _ hv1.2.1) (hv1.2.2 _ hmin.2.1))
  have hV : V = w := by
    simp only [V]
    unfold minPoly
    simp only
    rw [if_neg (by rw [hVeq]; omega), hVeq]
  refine ⟨hV, fun sqf xg lam chk hsqf => ?_⟩
  have hel : sqfPart V lmb.length sqf = w := by
    rw [hV, sqfPart, if_pos ⟨hsq, hwd⟩]
  obtain ⟨k1, k2⟩ := modular_gb hp31 hG hok hsort hb hne hnf hlast us hM ev0 vecinit vvec hhg hsqf (by
    change (sqfPart V lmb.length sqf).natDegree = _
    rw [hel, hwd])
  obtain ⟨r, hr⟩ := Option.ne_none_iff_exists'.mp (fun hc => by
    have h1 := (k1.mp hc).2
    exact hv2 ((C52_outcome hhg hpos (by omega) (fun i hi => hpg i (by omega))).2.2.1.mp h1))
  obtain ⟨-, r2, -, r4, -⟩ := k2 r hr
  have hsh := ShapeQ.shape_of_span (I := I) (w := r.1) (c := fun k => r.2 k) (last := last) r2 (by
    refine r4.trans ?_
    congr 2
    ext g
    constructor
    · rintro ⟨k, hk, h⟩
      exact ⟨k, ne_of_lt hk, h⟩
    · rintro ⟨k, hk, h⟩
      refine ⟨k, lt_of_le_of_ne ?_ hk, h⟩
      rw [Fin.le_def, hlast]
      exact Nat.le_sub_one_of_lt k.isLt)
  obtain ⟨u1, u2⟩ := hS.unique hsh
  refine ⟨r.2, ?_, fun k hk => ?_⟩
  · have := fglm_shape (squ := squVars lmb) (resSq := (M.toMat p).resSq vecinit vvec) (V := V) (xg := xg) (lam := lam) (chk := chk) (by
      rw [hel, hwd]) hr
    rw [this, u1]
  · rw [u2 k hk, ← u1]
    exact (EuclideanDomain.mod_eq_sub_mul_div (r.2 k) w) ▸ ⟨r.2 k / w, by ring⟩

/-- One computation in shape position: for all but a fraction of at most `(D + 1) / p` of the random vectors there is no undefined behaviour, and the result is the
parametrization, unless the staircase is rejected. -/
theorem outcome_shape {p : ℕ} [hp : Fact p.Prime] (hp2 : p ≠ 2) (hps : p < 1518500213) (hn : 1 ≤ n) {I : Ideal (MvPolynomial (Fin n) (ZMod p))}
    {last : Fin n} (hlast : last.val = n - 1) {w : Polynomial (ZMod p)} {c : Fin n → Polynomial (ZMod p)} (hS : Shape I last w c)
    (hsq : Squarefree w) (hd : 0 < w.natDegree) :
    ∃ S : Finset (Fin w.natDegree → ZMod p), p * S.card ≤ (w.natDegree + 1) * p ^ w.natDegree ∧
      ∀ (G : List (Poly n)), IsReducedGroebner OKind.drl.mo I {g | ∃ f ∈ G, g = toMv p f} → (∀ f ∈ G, PolyOk .drl p f) →
        (G.Pairwise fun a b => OKind.drl.lt (F4.lead a) (F4.lead b)) → ∀ vecinit : ℕ → ZMod p, (fun i : Fin w.natDegree => vecinit i) ∉ S →
        ∀ (us : ℤ) (chk : Bool) (lam : ℕ → ZMod p),
          ¬ UbV p us chk G vecinit lam ∧
          (∀ a, OutcomeV p us chk G vecinit lam a → (a = .failed ∧ ¬ StairOk us OKind.drl.mo I last) ∨
            (StairOk us OKind.drl.mo I last ∧ ∃ cs, a = .ok w.natDegree w cs ∧ ∀ k : Fin n, k ≠ last → w ∣ cs k - c k)) ∧
          ∃ a, OutcomeV p us chk G vecinit lam a := by
  classical
  have hp31 : p < 2 ^ 31 := by omega
  obtain ⟨hfinite, hrank⟩ := hS.finrank
  by_cases hex : ∃ (G : List (Poly n)), IsReducedGroebner OKind.drl.mo I {g | ∃ f ∈ G, g = toMv p f} ∧ (∀ f ∈ G, PolyOk .drl p f)
  swap
  · exact ⟨∅, by simp, fun G hG hok _ => absurd ⟨G, hG, hok⟩ hex⟩
  obtain ⟨G0, hG0, hok0⟩ := hex
  obtain ⟨fuel0, lmb, hb0⟩ := basis_done hn hG0 hok0 hfinite
  obtain ⟨B, hB⟩ := C60_basis hn hG0 hok0 hb0
  obtain ⟨hsrt, hm0⟩ := irr_iff hn hb0
  have hlen : lmb.length = w.natDegree := by
    rw [← hrank, Module.finrank_eq_card_basis B, Fintype.card_fin]
  have htop : I ≠ ⊤ := by
    intro ht
    have : Subsingleton (MvPolynomial (Fin n) (ZMod p) ⧸ I) := Ideal.Quotient.subsingleton_iff.mpr ht
    rw [Module.finrank_zero_of_subsingleton] at hrank
    omega
  have hnt : Nontrivial (MvPolynomial (Fin n) (ZMod p) ⧸ I) := Ideal.Quotient.nontrivial_iff.mpr htop
  have hmp := shape_minpoly hS
  have h0mem : (0 : Mon n) ∈ lmb := by
    rw [hm0, ← standard_iff hG0 hok0]
    intro g hg hg0 hdg
    have hz := OKind.drl.mo.degree_eq_zero_iff.mp (hdg.trans (by ext i; rfl))
    apply htop
    have hu : IsUnit g := by
      rw [hz]
      refine IsUnit.map C (isUnit_iff_ne_zero.mpr ?_)
      rwa [Ne, OKind.drl.mo.leadingCoeff_eq_zero_iff]
    exact Ideal.eq_top_of_isUnit_mem I hg hu
  have hne := List.ne_nil_of_mem h0mem
  obtain ⟨S, hS1, hgood⟩ := shape_vectors B (Ideal.Quotient.mk I (X last)) (by rw [hmp, hlen])
  rw [ZMod.card] at hS1
  rw [← hlen]
  refine ⟨S, hS1, ?_⟩
  intro G hG hok hsort vecinit hv us chk lam
  obtain ⟨hv1, hv2⟩ := hgood _ hv
  rw [hmp] at hv1
  have hlmb : ∀ {fuel : ℕ} {lmb' : List (Mon n)}, Hilbert.monomialBasis (G.map F4.lead) fuel = .done lmb' → lmb = lmb' := by
    intro fuel lmb' hb
    obtain ⟨hsrt', hm⟩ := irr_iff hn hb
    refine sorted_ext hsrt hsrt' fun m => ?_
    rw [hm0, hm, irr_ideal hG0 hok0, irr_ideal hG hok]
  have hc1 : ¬ (G.length = 1 ∧ F4.lead (G.getD 0 []) = 0) := by
    intro h1
    have ho : Outcome p us chk G .empty := by rw [Outcome, if_pos h1]
    exact htop (outcome_gb hp31 hn hG hok hsort ho).1
  have hc2 : ¬ Hilbert.hasDimensionZero (G.map F4.lead) = false := by
    intro h2
    have ho : Outcome p us chk G .positive := by rw [Outcome, if_neg hc1, if_pos h2]
    exact (outcome_gb hp31 hn hG hok hsort ho).1 hfinite
  refine ⟨?_, ?_, ?_⟩
  · rintro ⟨h1, h2, fuel, lmb', nf, last', hb, hnf, hlast', ho⟩
    obtain rfl := hlmb hb
    obtain rfl : last = last' := Fin.ext (hlast.trans hlast'.symm)
    obtain ⟨c1, c2⟩ := C60_matrix hp31 hn hG hok hsort hb hne hnf last us
    rcases ho with ho | ⟨M, hM, h | h | ⟨ev0, vvec, hg, sqf, xg, hhg, hsqf, hxg, ho⟩⟩
    · rcases Nat.lt_or_ge _ _ with h | h
      · rw [c1 h] at ho
        exact absurd ho (by simp)
      · obtain ⟨M, hM, -⟩ := c2 h
        rw [hM] at ho
        exact absurd ho (by simp)
    · exact hp2 h
    · omega
    · obtain ⟨-, k⟩ := shape_fglm hp31 hn hlast hS hsq hG hok hsort hb h0mem hnf hM B hB ev0 hv1 hv2 vvec hhg
      obtain ⟨cs, h, -⟩ := k sqf xg lam chk hsqf
      exact absurd (ho.symm.trans h) (by simp)
  · intro a ho
    rw [OutcomeV, if_neg hc1, if_neg hc2] at ho
    obtain ⟨fuel, lmb', nf, last', hb, hnf, hlast', ho⟩ := ho
    obtain rfl := hlmb hb
    obtain rfl : last = last' := Fin.ext (hlast.trans hlast'.symm)
    obtain ⟨c1, c2⟩ := C60_matrix hp31 hn hG hok hsort hb hne hnf last us
    rw [stair_iff hG hok hsort hn hb]
    rcases ho with ⟨hM, rfl⟩ | ⟨M, hM, -, -, ev0, vvec, hg, sqf, xg, hhg, hsqf, hxg, ho⟩
    · refine Or.inl ⟨rfl, fun hle => ?_⟩
      obtain ⟨M, hM', -⟩ := c2 hle
      rw [hM'] at hM
      exact absurd hM (by simp)
    · refine Or.inr ⟨?_, ?_⟩
      · by_contra hlt
        rw [c1 (not_le.mp hlt)] at hM
        exact absurd hM (by simp)
      · obtain ⟨-, k⟩ := shape_fglm hp31 hn hlast hS hsq hG hok hsort hb h0mem hnf hM B hB ev0 hv1 hv2 vvec hhg
        obtain ⟨cs, h, hcs⟩ := k sqf xg lam chk hsqf
        exact ⟨cs, Option.some.inj (ho.symm.trans h), hcs⟩
  · obtain ⟨fuel, lmb', hb⟩ := basis_done hn hG hok hfinite
    obtain rfl := hlmb hb
    obtain ⟨nf, hnf⟩ := nf_exists hp.out hp31 hok
    obtain ⟨c1, c2⟩ := C60_matrix hp31 hn hG hok hsort hb hne hnf last us
    rcases Nat.lt_or_ge _ _ with h | h
    · refine ⟨.failed, ?_⟩
      rw [OutcomeV, if_neg hc1, if_neg hc2]
      exact ⟨fuel, lmb, nf, last, hb, hnf, hlast, Or.inl ⟨c1 h, rfl⟩⟩
    · obtain ⟨M, hM, -⟩ := c2 h
      obtain ⟨hg, hhg⟩ := hgcd_exists (K := ZMod p)
      obtain ⟨xg, hxg⟩ := xgcdOk_exists (ZMod p)
      obtain ⟨hV, k⟩ := shape_fglm hp31 hn hlast hS hsq hG hok hsort hb h0mem hnf hM B hB (fun _ => 0) hv1 hv2 (fun _ => 0) hhg
      have hsqf : SqfOk (minPoly hg ((M.toMat p).pts vecinit fun _ => 0) lmb.length) [(w, 1)] := by
        rw [hV]
        exact ⟨by simp, by simp, by simpa using hS.monic, by simpa using hsq, by simp⟩
      obtain ⟨cs, h, -⟩ := k [(w, 1)] xg lam chk hsqf
      refine ⟨.ok lmb.length w cs, ?_⟩
      rw [OutcomeV, if_neg hc1, if_neg hc2]
      exact ⟨fuel, lmb, nf, last, hb, hnf, hlast, Or.inr ⟨M, hM, hp2, hps, fun _ => 0, fun _ => 0, hg, _, xg, hhg, hsqf, hxg, h⟩⟩

end Solve

open Verif.F4 Verif.Spec Verif.Solve Verif.Spec.Solutions Verif.VarOrder
open Verif.Spec.Output (readOutput Tree)
open Verif.Spec.Text (File)
open Verif.Parse (ffPoly)
open Verif.Props.EndToEnd (InputOk inputIdeal read_file)
open MvPolynomial

/-- C83: in shape position with a radical ideal all but a fraction of at most `(D + 1) / p` of the random vectors lead to success: no execution reaches
undefined behaviour, there is a printed output if the staircase is accepted, and every printed output is the parametrization of the ideal: the eliminating
polynomial is `w` and the coordinates are those of the ideal, modulo `w`. -/
theorem C83_success {f : File} {names : List (List Char)} {p : ℕ} [hF : Fact p.Prime] {tss : List (List Text.Mon)} (h : InputOk f names p tss)
    (hpl : Solve.Plain names p) (hp2 : p ≠ 2) (hps : p < 1518500213) {last : Fin names.length} (hlast : last.val = names.length - 1)
    {w : Polynomial (ZMod p)} {c : Fin names.length → Polynomial (ZMod p)} (hS : Shape (inputIdeal names.length p tss) last w c)
    (hsq : Squarefree w) (hd : 0 < w.natDegree) :
    ∃ S : Finset (Fin w.natDegree → ZMod p), p * S.card ≤ (w.natDegree + 1) * p ^ w.natDegree ∧
      ∀ vecinit : ℕ → ZMod p, (fun i : Fin w.natDegree => vecinit i) ∉ S → ∀ (us : ℤ) (lam : ℕ → ZMod p),
        let g := gensOf names p (tss.map (ffPoly names.length p))
        ¬ UbAttemptV p us g true vecinit lam ∧
        (∃ a, AttemptV p us g true vecinit lam a) ∧
        (StairOk us OKind.drl.mo (inputIdeal names.length p tss) last → ¬ AttemptV p us g true vecinit lam .failed ∧
          ¬ AttemptV p us g true vecinit lam .generic ∧ ∀ handling gp, ∃ out, RunV handling us gp f.text p g true vecinit lam out) ∧
        ∀ (handling gp : ℕ) (out : List Char), RunV handling us gp f.text p g true vecinit lam out →
          ∃ (form : List ℚ) (elim : List ℤ) (coords : List (List ℤ)),
            readOutput out = some (.list [.num 0, modParam p names.length w.natDegree names form elim [1] coords]) ∧
            elim.length = w.natDegree + 1 ∧ (∀ i, ((elim.getD i 0 : ℤ) : ZMod p) = w.coeff i) ∧ coords.length = names.length - 1 ∧
            ∀ k : Fin names.length, k ≠ last → ∃ q : Polynomial (ZMod p), w ∣ q - c k ∧
              ∀ i, (((coords.getD k []).getD i 0 : ℤ) : ZMod p) = q.coeff i := by
  have hn : 0 < names.length := List.length_pos_iff.mpr h.file.some
  obtain ⟨S, hSc, hgood⟩ := Solve.outcome_shape hp2 hps hn hlast hS hsq hd
  refine ⟨S, hSc, ?_⟩
  intro vecinit hv us lam g
  have hread := Solve.readGens_gensOf names p tss
  have hred : ∀ {G : List (Poly names.length)}, ExportF4.Basis 0 0 p true ((tss.map (Solve.raw0 names.length p)).map ExportF4.rawPoly) G → _ :=
    fun {G} hB => Solve.basis_reduced h.file.small (Solve.raw0_ok h) hB
  simp only [Solve.ideal_raw0] at hred
  have hatt : ∀ a, AttemptV p us g true vecinit lam a → (a = .failed ∧ ¬ StairOk us OKind.drl.mo (inputIdeal names.length p tss) last) ∨
      (StairOk us OKind.drl.mo (inputIdeal names.length p tss) last ∧
        ∃ cs, a = .ok w.natDegree w cs ∧ ∀ k : Fin names.length, k ≠ last → w ∣ cs k - c k) := by
    rintro a ⟨gens, G, hg, hB, ho⟩
    obtain rfl := Option.some.inj (hread.symm.trans hg)
    obtain ⟨-, hG, hok, hsort⟩ := hred hB
    exact (hgood G hG hok hsort vecinit hv us true lam).2.1 a ho
  have hex : ∃ a, AttemptV p us g true vecinit lam a := by
    obtain ⟨G, hB⟩ := Solve.basis_exists h.prime h.file.small hn (Solve.raw0_ok h)
    obtain ⟨-, hG, hok, hsort⟩ := hred hB
    obtain ⟨a, ha⟩ := (hgood G hG hok hsort vecinit hv us true lam).2.2
    exact ⟨a, _, G, hread, hB, ha⟩
  have hnm : ∀ s ∈ g.vnames, '\'' ∉ s.toList := by
    intro s hs
    obtain ⟨nm, hnm, rfl⟩ := List.mem_map.mp hs
    rw [String.toList_ofList]
    exact hpl.quote nm hnm
  have hlen : g.vnames.length = g.nvars := List.length_map _
  have hfc : g.fc ≠ 0 := h.prime.pos.ne'
  have hvn : g.vnames.map String.toList = names := by
    simp only [g, gensOf, List.map_map]
    conv_rhs => rw [← List.map_id names]
    refine List.map_congr_left fun nm _ => ?_
    simp
  refine ⟨?_, hex, fun hst => ⟨?_, ?_, ?_⟩, ?_⟩
  · rintro ⟨gens, G, hg, hB, ho⟩
    obtain rfl := Option.some.inj (hread.symm.trans hg)
    obtain ⟨-, hG, hok, hsort⟩ := hred hB
    exact (hgood G hG hok hsort vecinit hv us true lam).1 ho
  · intro ha
    rcases hatt _ ha with ⟨-, hns⟩ | ⟨-, cs, hc, -⟩
    · exact hns hst
    · exact absurd hc (by simp)
  · intro ha
    rcases hatt _ ha with ⟨-, hns⟩ | ⟨-, cs, hc, -⟩
    · exact hns hst
    · exact absurd hc (by simp)
  · intro handling gp
    obtain ⟨a, ha⟩ := hex
    rcases hatt a ha with ⟨-, hns⟩ | ⟨-, cs, rfl, -⟩
    · exact absurd hst hns
    obtain ⟨D, hD⟩ := Solve.shown_exists w cs g.nvars
    obtain ⟨out, h1, -⟩ := C71_mod (g := g) hfc (dquot := w.natDegree) (by exact_mod_cast hd) gp (D := D)
      ⟨hn, hlen.ge, fun h0 => absurd h0 hfc⟩ (nums := _) (den := _) rfl hnm []
    exact ⟨out, names, _, [], _, read_file h, .start, ha, D, hD, h1⟩
  · rintro handling gp out ⟨names', ps, rs, a, hrd, hloop, ha, hpr⟩
    rcases hatt a ha with ⟨rfl, -⟩ | ⟨-, cs, rfl, hcs⟩
    · exact absurd hpr (by simp [Prints])
    obtain ⟨D, hD, hdis⟩ := hpr
    obtain ⟨nums, hout⟩ := Solve.display_parts hfc hd hnm hlen hdis
    obtain ⟨l, hl, hl2, hl3⟩ := hD.coords
    rw [hD.denom, hl, hvn] at hout
    refine ⟨nums.map fun a : ℤ => (a : ℚ), D.melim.map fun c : ℕ => (c : ℤ), (l.map fun q : List ℕ => q.map fun c : ℕ => (c : ℤ) : List (List ℤ)),
      hout, by rw [List.length_map, hD.len], ?_, ?_, ?_⟩
    · intro i
      rw [← hD.elim.2 i, Solve.getD_cast, Int.cast_natCast]
    · rw [List.length_map, hl2]
      rfl
    · intro k hk
      have hk' : k.val < g.nvars - 1 := by
        have : k.val ≠ last.val := fun he => hk (Fin.ext he)
        have := k.isLt
        change k.val < names.length - 1
        omega
      refine ⟨cs k, hcs k hk, fun i => ?_⟩
      rw [← (hl3 k hk').2 i]
      have : (l.map fun q => q.map fun c : ℕ => (c : ℤ)).getD k [] = (l.getD k []).map fun c : ℕ => (c : ℤ) := by
        simp [List.getD_eq_getElem?_getD, hl2, hk']
      rw [this, Solve.getD_cast, Int.cast_natCast]

/-- C83: with the option `-u 4` (no limit) the staircase is always accepted. -/
theorem C83_stable {f : File} {names : List (List Char)} {p : ℕ} [hF : Fact p.Prime] {tss : List (List Text.Mon)} (h : InputOk f names p tss)
    (hfin : Module.Finite (ZMod p) (MvPolynomial (Fin names.length) (ZMod p) ⧸ inputIdeal names.length p tss)) (x : Fin names.length) {us : ℤ}
    (hus : us < 0 ∨ 3 < us) : StairOk us OKind.drl.mo (inputIdeal names.length p tss) x := by
  have hn : 0 < names.length := List.length_pos_iff.mpr h.file.some
  obtain ⟨G, hB⟩ := Solve.basis_exists h.prime h.file.small hn (Solve.raw0_ok h)
  obtain ⟨-, hG, hok, hsort⟩ := Solve.basis_reduced h.file.small (Solve.raw0_ok h) hB
  rw [Solve.ideal_raw0] at hG
  obtain ⟨fuel, lmb, hb⟩ := Solve.basis_done hn hG hok hfin
  exact Solve.stair_all hG hok hsort hn hb x hus

/-! ### Example -/

namespace Solve

open Verif.Props.EndToEnd (twoNames)

theorem sx_ne : (100 : ZMod 101) ≠ 0 := by decide

theorem sx_shape [hp : Fact (Nat.Prime 101)] : Shape (inputIdeal 2 101 sxTerms) (1 : Fin 2) (Polynomial.X ^ 2 + Polynomial.C 100) (fun _ => Polynomial.C 100 * Polynomial.X) where
  monic := Polynomial.monic_X_pow_add_C _ (by norm_num)
  degree := by
    intro k _
    rw [Polynomial.degree_X_pow_add_C (by norm_num), Polynomial.degree_C_mul_X sx_ne]
    decide
  span := by
    rw [inputIdeal, sx_poly]
    congr 1
    have e1 : toMv 101 [((![0, 2] : Fin 2 → ℕ), 1), (![0, 0], 100)] = Polynomial.aeval (X (1 : Fin 2)) (Polynomial.X ^ 2 + Polynomial.C (100 : ZMod 101)) := by
      have h1 : F4.fs (![0, 2] : Fin 2 → ℕ) = Finsupp.single 1 2 := by ext i; fin_cases i <;> simp
      have h2 : F4.fs (![0, 0] : Fin 2 → ℕ) = 0 := by ext i; fin_cases i <;> simp
      simp [toMv, h1, h2, X_pow_eq_monomial]
    have e2 : toMv 101 [((![1, 0] : Fin 2 → ℕ), 1), (![0, 1], 100)] =
        X 0 + Polynomial.aeval (X (1 : Fin 2)) (Polynomial.C (100 : ZMod 101) * Polynomial.X) := by
      have h1 : F4.fs (![1, 0] : Fin 2 → ℕ) = Finsupp.single 0 1 := by ext i; fin_cases i <;> simp
      have h2 : F4.fs (![0, 1] : Fin 2 → ℕ) = Finsupp.single 1 1 := by ext i; fin_cases i <;> simp
      simp [toMv, h1, h2, X, algebraMap_eq, C_mul_monomial]
    ext q
    simp only [exS, List.mem_cons, List.not_mem_nil, or_false, exists_eq_or_imp, exists_eq_left, e1, e2, Set.mem_union, Set.mem_singleton_iff, Set.mem_ofPred_eq]
    refine or_congr Iff.rfl ⟨fun h => ⟨0, by decide, h⟩, ?_⟩
    rintro ⟨k, hk, h⟩
    obtain rfl : k = 0 := by
      have : ∀ k : Fin 2, k ≠ 1 → k = 0 := by decide
      exact this k hk
    exact h

theorem sx_squarefree : Squarefree (Polynomial.X ^ 2 + Polynomial.C 100 : Polynomial (ZMod 101)) := by
  have hp : Fact (Nat.Prime 101) := ⟨by norm_num⟩
  have : (Polynomial.X ^ 2 + Polynomial.C 100 : Polynomial (ZMod 101)).Separable := by
    have h1 : (Polynomial.C 100 : Polynomial (ZMod 101)) = -1 := by
      rw [← Polynomial.C_1, ← Polynomial.C_neg]
      congr 1
    have h2 : (Polynomial.C 51 * 2 : Polynomial (ZMod 101)) = 1 := by
      rw [← Polynomial.C_ofNat, ← Polynomial.C_mul, ← Polynomial.C_1]
      congr 1
    refine ⟨-1, Polynomial.C 51 * Polynomial.X, ?_⟩
    rw [h1]
    simp only [Polynomial.derivative_add, Polynomial.derivative_X_pow, Polynomial.derivative_neg, Polynomial.derivative_one]
    simp only [Nat.cast_ofNat, Polynomial.C_ofNat]
    rw [Polynomial.C_ofNat] at h2
    linear_combination (Polynomial.X ^ 2) * h2
  exact this.squarefree

/-- A vector that is no bad one. -/
theorem vector_outside {p D : ℕ} [hp : Fact p.Prime] (hD : D + 1 < p) (S : Finset (Fin D → ZMod p)) (hS : p * S.card ≤ (D + 1) * p ^ D) :
    ∃ v : ℕ → ZMod p, (fun i : Fin D => v i) ∉ S := by
  have h1 : S ≠ Finset.univ := by
    rintro rfl
    rw [Finset.card_univ, Fglm.card_vectors, ZMod.card] at hS
    have := Nat.le_of_mul_le_mul_right hS (pow_pos hp.out.pos D)
    omega
  obtain ⟨v, hv⟩ : ∃ v, v ∉ S := by
    by_contra hc
    push Not at hc
    exact h1 (Finset.eq_univ_iff_forall.mpr hc)
  exact ⟨fun i => if h : i < D then v ⟨i, h⟩ else 0, by simpa using hv⟩

/-- The hypotheses of C83 are met by the file with `y^2 - 1` and `x - y` modulo 101; there is a run, with a vector for which all conclusions hold. -/
example : have : Fact (Nat.Prime 101) := ⟨by norm_num⟩
    ∃ (vecinit : ℕ → ZMod 101) (out : List Char), RunV 2 4 0 sxFile.text 101 (gensOf twoNames 101 (sxTerms.map (ffPoly 2 101))) true vecinit (fun _ => 1) out ∧
      ∃ (form : List ℚ) (elim : List ℤ) (coords : List (List ℤ)),
        readOutput out = some (.list [.num 0, modParam 101 2 2 twoNames form elim [1] coords]) ∧ elim.length = 3 := by
  intro hp
  have hdeg : (Polynomial.X ^ 2 + Polynomial.C 100 : Polynomial (ZMod 101)).natDegree = 2 := Polynomial.natDegree_X_pow_add_C
  obtain ⟨S, hS, hgood⟩ := C83_success sxFile_ok sx_plain (by norm_num) (by norm_num) (last := ⟨1, by decide⟩) rfl sx_shape sx_squarefree
    (by rw [hdeg]; norm_num)
  obtain ⟨v, hv⟩ := vector_outside (by rw [hdeg]; norm_num) S hS
  obtain ⟨-, -, h3, h4⟩ := hgood v hv 4 fun _ => 1
  obtain ⟨out, hout⟩ := (h3 (C83_stable sxFile_ok sx_shape.finrank.1 _ (.inr (by norm_num)))).2.2 2 0
  obtain ⟨form, elim, coords, k1, k2, -⟩ := h4 2 0 out hout
  rw [hdeg] at k1 k2
  exact ⟨v, out, hout, form, elim, coords, k1, k2⟩

end Solve

end Verif.Props
