import Verif.Props.SolveLost
import Verif.Props.SolveOnce

/-! C78: a computation that asks for the random linear form. -/
namespace Verif.Props
namespace SolveOnce

open Verif.F4 Verif.Pairs Verif.Spec Verif.MulMatrix Verif.Fglm Verif.BM Verif.Hankel Verif.LinForms Verif.VarOrder Verif.Output Verif.Solve
open Verif.Groebner Verif.ExportF4 Verif.Spec.Solutions
open Verif.Spec.Text (File)
open Verif.Parse (ffPoly)
open Verif.Props.EndToEnd (InputOk inputIdeal read_file twoNames)
open Verif.Props.Solve
open MvPolynomial

/-! ### A system with a missing square

`y^2`, `x y - y`, `x^2 - x`: the square of `x` is not in the monomial basis `1, y, x`. -/

def goG : List (Poly 2) := [[(![0, 2], 1)], [(![1, 1], 1), (![0, 1], 100)], [(![2, 0], 1), (![1, 0], 100)]]

theorem goG_ok : ∀ f ∈ goG, PolyOk .drl 101 f := by
  intro f hf
  simp only [goG, List.mem_cons, List.not_mem_nil, or_false] at hf
  rcases hf with rfl | rfl | rfl
  · refine ⟨⟨_, rfl⟩, ?_, by decide⟩
    simp only [OKind.lt, Drl, DrlOn]
    decide
  · refine ⟨⟨_, rfl⟩, ?_, by decide⟩
    simp only [OKind.lt, Drl, DrlOn]
    decide
  · refine ⟨⟨_, rfl⟩, ?_, by decide⟩
    simp only [OKind.lt, Drl, DrlOn]
    decide

theorem goG_sorted : goG.Pairwise (fun a b => OKind.drl.lt (F4.lead a) (F4.lead b)) := by
  simp only [goG, F4.lead, OKind.lt, Drl, DrlOn]
  decide

noncomputable def goI : Ideal (MvPolynomial (Fin 2) (ZMod 101)) := Ideal.span { g | ∃ f ∈ goG, g = toMv 101 f }

theorem go_gens : toMv 101 [((![2, 0] : Mon 2), 1), (![1, 0], 100)] = (X 0 ^ 2 - X 0 : MvPolynomial (Fin 2) (ZMod 101)) := by
  have h : ∀ (a b c : ℕ), (monomial (F4.fs (![a, b] : Mon 2)) ((c : ℕ) : ZMod 101) : MvPolynomial (Fin 2) (ZMod 101)) = C (c : ZMod 101) * (X 0 ^ a * X 1 ^ b) := by
    intro a b c
    rw [monomial_eq, Finsupp.prod_fintype _ _ (by simp), Fin.prod_univ_two]
    rfl
  have h100 : (C ((100 : ℕ) : ZMod 101) : MvPolynomial (Fin 2) (ZMod 101)) = -1 := by
    rw [show ((100 : ℕ) : ZMod 101) = -1 by decide, C_neg, C_1]
  simp only [toMv, List.map_cons, List.map_nil, List.sum_cons, List.sum_nil, h, h100]
  simp
  ring

theorem go_kernel {R : Type*} [CommRing R] [Algebra (ZMod 101) R] (a b : R) (h1 : b ^ 2 = 0) (h2 : a * b - b = 0)
    (h3 : a ^ 2 - a = 0) {g : MvPolynomial (Fin 2) (ZMod 101)} (hg : g ∈ goI) : aeval ![a, b] g = 0 := by
  have : goI ≤ RingHom.ker (aeval ![a, b] : MvPolynomial (Fin 2) (ZMod 101) →ₐ[ZMod 101] R).toRingHom := by
    refine Ideal.span_le.mpr ?_
    rintro _ ⟨f, hf, rfl⟩
    obtain ⟨g1, g2, -⟩ := lo_gens true
    simp only [goG, List.mem_cons, List.not_mem_nil, or_false] at hf
    show aeval ![a, b] _ = 0
    rcases hf with rfl | rfl | rfl
    · rw [g1]
      simpa using h1
    · rw [g2]
      simpa using h2
    · rw [go_gens]
      simpa using h3
  exact this hg

theorem goG_groebner : have : Fact (Nat.Prime 101) := ⟨by norm_num⟩
    IsReducedGroebner OKind.drl.mo goI { g | ∃ f ∈ goG, g = toMv 101 f } := by
  intro hp
  refine ⟨⟨?_, ?_⟩, ?_, ?_⟩
  · rintro _ ⟨f, hf, rfl⟩
    exact Ideal.subset_span ⟨f, hf, rfl⟩
  · intro f hf h0
    by_contra hc
    push Not at hc
    have hne : ∀ g ∈ goG, toMv 101 g ≠ 0 := by
      intro g hg h
      have := (goG_ok g hg).monic
      rw [h, MonomialOrder.leadingCoeff_zero] at this
      exact zero_ne_one this
    have hcc : ∀ g ∈ goG, ¬ F4.fs (F4.lead g) ≤ OKind.drl.mo.degree f := by
      intro g hg
      have := hc _ ⟨g, hg, rfl⟩ (hne g hg)
      rwa [(goG_ok g hg).degree] at this
    obtain ⟨u, hu⟩ := fs_surj (OKind.drl.mo.degree f)
    rw [← hu] at hcc
    have c1 : ¬ (![0, 2] : Mon 2) ≤ u := fun h => hcc [(![0, 2], 1)] (by simp [goG]) h
    have c2 : ¬ (![1, 1] : Mon 2) ≤ u := fun h => hcc [(![1, 1], 1), (![0, 1], 100)] (by simp [goG]) h
    have c3 : ¬ (![2, 0] : Mon 2) ≤ u := fun h => hcc [(![2, 0], 1), (![1, 0], 100)] (by simp [goG]) h
    rw [Pi.le_def, Fin.forall_fin_two] at c1 c2 c3
    simp at c1 c2 c3
    have hlead : coeff (F4.fs u) f ≠ 0 := by
      rw [hu]
      exact mem_support_iff.mp (OKind.drl.mo.degree_mem_support h0)
    have hlow : ∀ v : Mon 2, coeff (F4.fs v) f ≠ 0 → v = u ∨ OKind.drl.lt v u := by
      intro v hv
      have hle := OKind.drl.mo.le_degree (mem_support_iff.mpr hv)
      by_contra hcon
      push Not at hcon
      rcases OKind.drl.adm.total v u with h | h | h
      · exact hcon.2 h
      · exact hcon.1 h
      · rw [← hu, ← not_lt] at hle
        exact hle ((F4.lt_iff _ _ _).mpr h)
    have hdeg : ∀ v : Mon 2, coeff (F4.fs v) f ≠ 0 → v 0 + v 1 ≤ u 0 + u 1 := by
      intro v hv
      rcases hlow v hv with rfl | h3
      · exact le_rfl
      · simp only [OKind.lt, Drl, DrlOn, Fin.sum_univ_two] at h3
        rcases h3 with h3 | ⟨h3, -⟩ <;> omega
    have hv2 : ∀ v : Mon 2, v = ![v 0, v 1] := by
      intro v
      funext j
      fin_cases j <;> rfl
    have hz : ∀ (v : Mon 2), u 0 + u 1 < v 0 + v 1 → coeff (F4.fs v) f = 0 := by
      intro v hv
      by_contra hcon
      have := hdeg v hcon
      omega
    have h1 : u 0 + u 1 ≤ 1 := by omega
    have hf2 : f = monomial (F4.fs ![0, 0]) (coeff (F4.fs ![0, 0]) f) + monomial (F4.fs ![0, 1]) (coeff (F4.fs ![0, 1]) f) +
        monomial (F4.fs ![1, 0]) (coeff (F4.fs ![1, 0]) f) := by
      ext m
      obtain ⟨v, rfl⟩ := fs_surj m
      simp only [coeff_add, coeff_monomial, fs_inj]
      by_cases hv : v 0 + v 1 ≤ 1
      · rw [hv2 v]
        generalize v 0 = a at *
        generalize v 1 = b at *
        have ha : a ≤ 1 := by omega
        interval_cases a
        · have hb : b ≤ 1 := by omega
          interval_cases b <;> simp
        · have hb : b ≤ 0 := by omega
          interval_cases b; simp
      · rw [hz v (by omega)]
        have key : ∀ a b : ℕ, a + b ≤ 1 → (![a, b] : Mon 2) ≠ v := by
          rintro a b hab rfl
          exact hv hab
        rw [if_neg (key 0 0 (by omega)), if_neg (key 0 1 (by omega)), if_neg (key 1 0 (by omega))]
        simp
    have em : ∀ (R : Type) [CommRing R] [Algebra (ZMod 101) R] (x y : R) (a b : ℕ) (c : ZMod 101),
        aeval ![x, y] (monomial (F4.fs (![a, b] : Mon 2)) c) = algebraMap (ZMod 101) R c * (x ^ a * y ^ b) := by
      intro R _ _ x y a b c
      rw [aeval_monomial, Finsupp.prod_fintype _ _ (by simp), Fin.prod_univ_two]
      rfl
    have ev : ∀ (R : Type) [CommRing R] [Algebra (ZMod 101) R] (x y : R), aeval ![x, y] f =
        algebraMap (ZMod 101) R (coeff (F4.fs ![0, 0]) f) + algebraMap (ZMod 101) R (coeff (F4.fs ![0, 1]) f) * y +
        algebraMap (ZMod 101) R (coeff (F4.fs ![1, 0]) f) * x := by
      intro R _ _ x y
      conv_lhs => rw [hf2]
      simp only [map_add, em, pow_zero, pow_one, mul_one, one_mul]
    have z1 := go_kernel (R := ZMod 101) 0 0 (by decide) (by decide) (by decide) hf
    have z2 := go_kernel (R := ZMod 101) 1 0 (by decide) (by decide) (by decide) hf
    have z4 := go_kernel (R := DualNumber (ZMod 101)) 1 DualNumber.eps (by rw [pow_two, DualNumber.eps_mul_eps]) (by ring) (by ring) hf
    rw [ev] at z1 z2 z4
    simp only [Algebra.algebraMap_self, RingHom.id_apply, mul_zero, add_zero, mul_one] at z1 z2
    rw [z1, zero_add] at z2
    have a4 : coeff (F4.fs ![0, 1]) f = 0 := by
      have := congrArg TrivSqZeroExt.snd z4
      simpa [TrivSqZeroExt.algebraMap_eq_inl] using this
    rw [hv2 u] at hlead
    generalize u 0 = a at *
    generalize u 1 = b at *
    have h4 : a ≤ 1 := by omega
    have h5 : b ≤ 1 := by omega
    interval_cases a <;> interval_cases b <;> first | exact hlead z1 | exact hlead z2 | exact hlead a4 | (exfalso; omega)
  · rintro _ ⟨f, hf, rfl⟩
    exact (goG_ok f hf).monic
  · rintro _ ⟨f, hf, rfl⟩ _ ⟨g, hg, rfl⟩ hne u hu hle
    obtain ⟨v, rfl⟩ := fs_surj u
    rw [(goG_ok g hg).degree] at hle
    have hle : F4.lead g ≤ v := hle
    have hv : ∃ t ∈ f, t.1 = v := by
      by_contra hcon
      push Not at hcon
      exact mem_support_iff.mp hu (toMv_coeff_zero 101 f v hcon)
    obtain ⟨t, ht, rfl⟩ := hv
    have hfg : f ≠ g := fun h => hne (by rw [h])
    have key : ∀ f ∈ goG, ∀ g ∈ goG, f ≠ g → ∀ t ∈ f, ¬ (F4.lead g 0 ≤ t.1 0 ∧ F4.lead g 1 ≤ t.1 1) := by decide
    exact key f hf g hg hfg t ht ⟨hle 0, hle 1⟩

def goB : List (Mon 2) := [![0, 0], ![0, 1], ![1, 0]]

theorem goB_sorted : goB.Pairwise OKind.drl.lt := by
  show goB.Pairwise fun a b => DrlOn Finset.univ a b
  simp only [goB, DrlOn]
  decide

theorem goB_mem (m : Mon 2) : m ∈ goB ↔ ∀ f ∈ goG, ¬ F4.lead f ≤ m := by
  have hv2 : m = ![m 0, m 1] := by
    funext j
    fin_cases j <;> rfl
  have h1 : (∀ f ∈ goG, ¬ F4.lead f ≤ m) ↔ ¬ 2 ≤ m 1 ∧ ¬ (1 ≤ m 0 ∧ 1 ≤ m 1) ∧ ¬ 2 ≤ m 0 := by
    simp [goG, F4.lead, Pi.le_def, Fin.forall_fin_two]
  rw [h1]
  generalize m 0 = a at *
  generalize m 1 = b at *
  subst hv2
  constructor
  · intro h
    simp only [goB, List.mem_cons, List.not_mem_nil, or_false] at h
    rcases h with h | h | h <;> have h0 := congrFun h 0 <;> have h1 := congrFun h 1 <;> simp at h0 h1 <;> omega
  · intro h
    have ha : a ≤ 1 := by omega
    have hb : b ≤ 1 := by omega
    interval_cases a <;> interval_cases b <;> first | (exfalso; omega) | simp [goB]

theorem go_squ : squVars goB 0 = 0 := by decide +kernel

theorem go_basis : ∃ fuel, Hilbert.monomialBasis (goG.map F4.lead) fuel = .done goB := by
  have hp : Fact (Nat.Prime 101) := ⟨by norm_num⟩
  have hfinite : {m : Fin 2 → ℕ | ∀ l ∈ goG.map F4.lead, ¬ ∀ i, l i ≤ m i}.Finite := by
    apply Set.Finite.subset (List.finite_toSet goB)
    intro m hm
    rw [Set.mem_ofPred_eq, goB_mem]
    intro f hf hle
    exact hm _ (List.mem_map_of_mem hf) hle
  obtain ⟨fuel, hD⟩ := (C24_termination (by norm_num : 1 ≤ 2) (goG.map F4.lead)).1 hfinite
  obtain ⟨lmb, hb⟩ := hD fuel le_rfl
  obtain ⟨h1, h2⟩ := irr_iff (by norm_num) hb
  have : lmb = goB := sorted_ext h1 goB_sorted fun m => by rw [h2, goB_mem]
  exact ⟨fuel, this ▸ hb⟩
/-- The run of the conversion, for any quotient with the same relations and the same monomial basis. -/
theorem go_fglm {A : Type*} [CommRing A] {p : ℕ} [Fact p.Prime] [Algebra (ZMod p) A] (x : Fin 2 → A) (hyy : x 1 * x 1 = 0) (hxy : x 0 * x 1 = x 1)
    (B : Module.Basis (Fin goB.length) (ZMod p) A) (hB : ∀ i, B i = ∏ j, x j ^ (goB.getD i 0) j) {M : Mat (ZMod p)}
    (m2 : IsMulMat M (fun i => ∏ j, x j ^ (goB.getD i 0) j) (x 1)) (hncols : M.ncols = 3)
    {hg : Polynomial (ZMod p) → Polynomial (ZMod p) → HM (ZMod p)} (hhg : HgcdOk hg)
    {xg : Polynomial (ZMod p) → Polynomial (ZMod p) → Polynomial (ZMod p) × Polynomial (ZMod p) × Polynomial (ZMod p)} (hxg : XgcdOk xg)
    {vecinit lam : ℕ → ZMod p} (hv : vecinit 1 ≠ 0) (hlam : lam 0 ≠ -1) {nlins : ℕ} {linvars : ℕ → ℕ} (hlin0 : ∀ k, k < 2 - 1 → linvars k = 0)
    (hnl : nlins ≠ 2) (lineqs : ℕ → ZMod p) (inv : Hankel.Inv (ZMod p)) :
    SqfOk (minPoly hg (M.pts vecinit fun _ => 0) 3) [(Polynomial.X, 2)] ∧
      fglm nlins linvars lineqs (squVars goB) (M.res vecinit fun _ => 0) (M.resSq vecinit fun _ => 0) inv
        (minPoly hg (M.pts vecinit fun _ => 0) 3) (sqfPart (minPoly hg (M.pts vecinit fun _ => 0) 3) 3 [(Polynomial.X, 2)]) xg lam 2 3 true =
        some .generic := by
  have hfinite : Module.Finite (ZMod p) A := Module.Finite.of_basis B
  have hfin : Module.finrank (ZMod p) A = 3 := by
    rw [Module.finrank_eq_card_basis B, Fintype.card_fin]
    rfl
  set l : A →ₗ[ZMod p] ZMod p := formOf B (fun i : Fin goB.length => vecinit i) with hl
  have hlv : ∀ k, k < M.ncols → vecinit k = l (∏ j, x j ^ (goB.getD k 0) j) := by
    intro k hk
    have hk : k < goB.length := by
      rw [hncols] at hk
      exact hk
    have := hB ⟨k, hk⟩
    rw [show ((⟨k, hk⟩ : Fin goB.length) : ℕ) = k from rfl] at this
    rw [← this, hl, formOf, Module.Basis.constr_basis]
  have hprod : ∀ a b : ℕ, ∏ j, x j ^ (![a, b] : Mon 2) j = x 0 ^ a * x 1 ^ b := by
    intro a b
    rw [Fin.prod_univ_two]
    rfl
  have hly : l (x 1) ≠ 0 := by
    have := hlv 1 (by omega)
    rw [show goB.getD 1 0 = ![0, 1] from rfl, hprod] at this
    rw [pow_zero, one_mul, pow_one] at this
    rw [← this]
    exact hv
  obtain ⟨hmin, Z2, hZ, hcoord, hver⟩ := lo_table (x := x 0) hyy hxy hly hxg (lam := lam 0) hlam
  have hseq : (fun i => M.res vecinit (fun _ => 0) i 0) = lseq l (x 1) 1 := by
    have := res_eq m2 l hlv (fun _ => 0) 0 (Or.inl ⟨rfl, by omega⟩)
    rw [this, if_pos rfl, show goB.getD 0 0 = ![0, 0] from rfl, hprod]
    simp
  have hcol : (fun i => M.res vecinit (fun _ => 0) i 1) = lseq l (x 1) (x 0) := by
    have := res_eq m2 l hlv (fun _ => 0) 1 (Or.inr (by omega))
    rw [this, if_neg (by omega), show goB.getD (1 + 1) 0 = ![1, 0] from rfl, hprod]
    simp
  have hpl : (M.pts vecinit fun _ => 0).length = 2 * 3 := by rw [pts_length, hncols]
  have hpg : ∀ i, i < 2 * 3 → (M.pts vecinit fun _ => 0).getD i 0 = lseq l (x 1) 1 i := by
    intro i hi
    exact pts_getD hseq i (by omega)
  obtain ⟨hmin', -⟩ := minPoly_seq hhg hfin hpl hpg
  have hVeq : elimPoly hg (M.pts vecinit fun _ => 0) 3 = Polynomial.X ^ 2 :=
    Polynomial.eq_of_monic_of_associated hmin'.1 hmin.1 (associated_of_dvd_dvd (hmin'.2.2 _ hmin.2.1) (hmin.2.2 _ hmin'.2.1))
  have hV : minPoly hg (M.pts vecinit fun _ => 0) 3 = Polynomial.X ^ 2 := by
    unfold minPoly
    simp only
    rw [hVeq, if_neg (by rw [Polynomial.natDegree_X_pow]; norm_num)]
  have hsqf : SqfOk (Polynomial.X ^ 2 : Polynomial (ZMod p)) [(Polynomial.X, 2)] := by
    refine ⟨by simp, by simp, by simp [Polynomial.monic_X], ?_, by simp⟩
    intro q hq
    simp only [List.mem_singleton] at hq
    subst hq
    exact Polynomial.irreducible_X.squarefree
  obtain ⟨e1, e2, e3, N, e4⟩ := sqfPart_spec hmin.1 hsqf 3
  have helim : sqfPart (Polynomial.X ^ 2 : Polynomial (ZMod p)) 3 [(Polynomial.X, 2)] = Polynomial.X := by
    refine Polynomial.eq_of_monic_of_associated e1 Polynomial.monic_X (associated_of_dvd_dvd ?_ ?_)
    · exact (e2.dvd_pow_iff_dvd two_ne_zero).mp e3
    · exact Polynomial.prime_X.dvd_of_dvd_pow ((dvd_pow_self _ two_ne_zero).trans e4)
  have hcs : tableLoop Polynomial.X (Polynomial.X ^ 2) Z2 (M.res vecinit fun _ => 0) linvars 2 0 = -1 := by
    rw [tableLoop_nolin _ _ _ _ hlin0 (by norm_num), hcol, hcoord]
  rw [hV]
  refine ⟨hsqf, ?_⟩
  rw [helim]
  unfold fglm
  rw [if_neg (by rw [Polynomial.natDegree_X]; norm_num), hseq, hZ]
  simp only
  rw [setLinear_nolin hlin0 hnl, if_neg, if_neg, if_pos]
  · exact ⟨by rw [Polynomial.natDegree_X]; norm_num, trivial, 0, by norm_num, go_squ⟩
  · rintro ⟨nc, hnc, -, h0, -⟩
    obtain rfl : nc = 0 := by omega
    exact h0 go_squ
  · rintro ⟨⟨k, hk, -, h0⟩, -⟩
    obtain rfl : k = 0 := by omega
    rw [hcs] at h0
    exact neg_ne_zero.mpr one_ne_zero h0

theorem go_outcome : have : Fact (Nat.Prime 101) := ⟨by norm_num⟩
    Outcome 101 2 true goG .generic := by
  intro hp
  have hlam : (1 : ZMod 101) ≠ -1 := lo1.1
  have hv : (1 : ZMod 101) ≠ 0 := one_ne_zero
  obtain ⟨hg, hhg⟩ := hgcd_exists (K := ZMod 101)
  obtain ⟨xg, hxg⟩ := xgcdOk_exists (ZMod 101)
  obtain ⟨fuel, hb⟩ := go_basis
  obtain ⟨nf, hnf⟩ := nf_exists (p := 101) (by norm_num) (by norm_num) goG_ok
  have hG := goG_groebner
  obtain ⟨B, hB⟩ := C60_basis (by norm_num) hG goG_ok hb
  have hR := redBasis_of hG goG_ok goG_sorted
  obtain ⟨M, hM, m1, m2, -⟩ := (C60_matrix (by norm_num) (by norm_num) hG goG_ok goG_sorted hb (by simp [goB]) hnf 1 2).2 (by
    have : {m : Mon 2 | (∀ f ∈ goG, ¬ F4.lead f ≤ m) ∧ (∃ f ∈ goG, F4.lead f ≤ m + var 1) ∧ ∀ f ∈ goG, F4.lead f ≠ m + var 1} ⊆ ∅ := by
      rintro m ⟨h1, h2, h3⟩
      rw [← goB_mem] at h1
      simp only [goB, List.mem_cons, List.not_mem_nil, or_false] at h1
      rcases h1 with rfl | rfl | rfl
      · obtain ⟨f, hf, hle⟩ := h2
        have key : ∀ f ∈ goG, ¬ (F4.lead f 0 ≤ 0 ∧ F4.lead f 1 ≤ 1) := by decide
        exact absurd ⟨hle 0, hle 1⟩ (key f hf)
      · exact absurd (by decide) (h3 [(![0, 2], 1)] (by simp [goG]))
      · exact absurd (by decide) (h3 [(![1, 1], 1), (![0, 1], 100)] (by simp [goG]))
    rw [Set.subset_empty_iff.mp this, Set.ncard_empty]
    decide)
  obtain ⟨g1, g2, -⟩ := lo_gens true
  have hyy : (X 1 ^ 2 : MvPolynomial (Fin 2) (ZMod 101)) ∈ goI := by
    rw [← g1]
    exact Ideal.subset_span ⟨_, by simp [goG], rfl⟩
  have hxy : (X 0 * X 1 - X 1 : MvPolynomial (Fin 2) (ZMod 101)) ∈ goI := by
    rw [← g2]
    exact Ideal.subset_span ⟨_, by simp [goG], rfl⟩
  have hyy' := Ideal.Quotient.eq_zero_iff_mem.mpr hyy
  have hxy' := Ideal.Quotient.eq_zero_iff_mem.mpr hxy
  rw [pow_two, map_mul] at hyy'
  rw [map_sub, map_mul, sub_eq_zero] at hxy'
  have hmv : ∀ u : Mon 2, Ideal.Quotient.mk goI (monomial (F4.fs u) 1) = ∏ j, Ideal.Quotient.mk goI (X j) ^ u j := fun u => (mval_quot u).symm
  simp only [hmv] at hB m2
  have hdim : Hilbert.hasDimensionZero (goG.map F4.lead) ≠ false := by decide
  have hred := reduced_fieldPoly hR
  have hnolin : ∀ k : Fin 2, ¬ LinVar goG.length (fun i => fieldPoly 101 (goG.getD i [])) k := by
    rintro k ⟨i, hi, he⟩
    rw [lead_fieldPoly] at he
    have h1 := congrArg (fun u : Mon 2 => ∑ j, u j) he
    simp only [sum_var] at h1
    have key : ∀ f ∈ goG, ∑ j, F4.lead f j ≠ 1 := by decide
    exact key _ (getD_mem [] hi) h1
  have hlin0 : ∀ k, k < 2 - 1 → (linVars 2 goG.length (lmRow fun i => fieldPoly 101 (goG.getD i []))).1 k = 0 := by
    intro k hk
    exact ((linVars_spec hred ⟨k, by omega⟩).2).mpr fun i' hi' he => hnolin ⟨k, by omega⟩ ⟨i', hi', he⟩
  have hnl : (linVars 2 goG.length (lmRow fun i => fieldPoly 101 (goG.getD i []))).2 ≠ 2 := by
    rw [nlins_spec hred]
    rw [rank, Finset.card_eq_zero.mpr]
    · norm_num
    · ext k
      simp only [Finset.mem_filter, Finset.mem_univ, true_and, Finset.notMem_empty, iff_false, not_and]
      exact fun _ => hnolin k
  obtain ⟨hsq, h1⟩ := go_fglm (fun j => Ideal.Quotient.mk goI (X j)) hyy' hxy' B hB m2 m1 hhg hxg (vecinit := fun _ => 1) (lam := fun _ => 1) hv hlam hlin0 hnl
    (rows slotCheck 2 (fun j => (fieldPoly 101 (goG.getD j [])).map fun t => (Orders.setEv 2 0 (Orders.ext t.1) fun _ => 0, t.2))
      (linVars 2 goG.length (lmRow fun i => fieldPoly 101 (goG.getD i []))).1) (invert hg ((M.toMat 101).pts (fun _ => 1) fun _ => 0) 3)
  rw [Outcome, if_neg (by decide), if_neg hdim]
  exact ⟨fuel, goB, nf, 1, hb, hnf, rfl, Or.inr ⟨M, hM, by decide, by decide, fun _ => 0, fun _ => 1, fun _ => 0, hg, [(Polynomial.X, 2)], xg, fun _ => 1,
    hhg, hsq, hxg, by simp, h1⟩⟩

/-- The hypothesis of `C78_squares` is met; `x^2` is the leading monomial of an element of the basis. -/
example : have : Fact (Nat.Prime 101) := ⟨by norm_num⟩
    Outcome 101 2 true goG .generic ∧ ∃ i : Fin 2, i.val < 2 - 1 ∧ ∃ g ∈ goG, F4.lead g ≤ Pi.single i 2 :=
  have : Fact (Nat.Prime 101) := ⟨by norm_num⟩
  ⟨go_outcome, (C78_squares go_outcome).2⟩

/-! ### The file -/

def goTerms : List (List Text.Mon) :=
  [[⟨false, none, [⟨1, some ['2']⟩]⟩],
   [⟨false, none, [⟨0, none⟩, ⟨1, none⟩]⟩, ⟨true, none, [⟨1, none⟩]⟩],
   [⟨false, none, [⟨0, some ['2']⟩]⟩, ⟨true, none, [⟨0, none⟩]⟩]]

def goFile : File := ⟨twoNames, ['1', '0', '1'], ["y^2".toList, "x*y-y".toList, "x^2-x".toList], ['\n']⟩

example : goFile.text = "x,y\n101\ny^2,\nx*y-y,\nx^2-x\n".toList := by decide +kernel

theorem goFile_ok : InputOk goFile twoNames 101 goTerms where
  file := by
    refine ⟨?_, by decide, by decide, ?_, by decide, ⟨['1', '0', '1'], [], rfl, ⟨by decide, by decide⟩, by decide, by simp⟩, by decide,
      by decide, ?_, by decide, by decide, ?_, by unfold Text.Fits; decide +kernel⟩
    · have h : ∀ nm ∈ twoNames, nm ≠ [] ∧ (∀ c ∈ nm.head?, c.isDigit = false) ∧
          ∀ c ∈ nm, c ∉ ['*', '^', '+', '-', ','] ∧ Text.isSpace c = false := by decide
      exact fun nm hm => ⟨(h nm hm).1, fun c l hcl => (h nm hm).2.1 c (by rw [hcl]; rfl), (h nm hm).2.2⟩
    · exact .cons ⟨[], [], rfl, by simp, by simp⟩ (.cons ⟨[], [], rfl, by simp, by simp⟩ .nil)
    · exact .cons ⟨by decide +kernel, by decide +kernel, by decide +kernel⟩ (.cons ⟨by decide +kernel, by decide +kernel, by decide +kernel⟩
          (.cons ⟨by decide +kernel, by decide +kernel, by decide +kernel⟩ .nil))
    · have h : ∀ ts ∈ goTerms, ∀ t ∈ ts, (t.num ≠ none ∨ t.fs ≠ []) ∧
          (∀ a ∈ t.num, (a.n ≠ [] ∧ ∀ c ∈ a.n, c.isDigit = true) ∧ a.d = none) ∧ (∀ f ∈ t.fs, f.v < twoNames.length) ∧
          (∀ f ∈ t.fs, ∀ ds ∈ f.e, (ds ≠ [] ∧ ∀ c ∈ ds, c.isDigit = true) ∧ Text.dec ds < 2 ^ 31) ∧ (t.fs.map (·.v)).Nodup := by
        decide +kernel
      intro ts hts t ht
      obtain ⟨h1, h2, h3, h4, h5⟩ := h ts hts t ht
      exact ⟨h1, fun a ha => ⟨(h2 a ha).1, fun d hd => absurd hd (by rw [(h2 a ha).2]; simp)⟩, h3, h4, h5⟩
  prime := by norm_num
  first := by
    have h : ∀ ts ∈ goTerms, ∀ t ∈ ts.head?, ∀ a ∈ t.num, a.d = none ∧ Text.dec a.n < 2 ^ 31 ∧ (t.neg = true → Text.dec a.n ≠ 0) := by
      decide +kernel
    exact h
  inner := by
    have h : ∀ ts ∈ goTerms, ∀ t ∈ ts.tail, ∀ a ∈ t.num, a.d = none ∧ Text.dec a.n < 2 ^ 63 - 1 ∧ Text.dec a.n ≠ 0 := by
      decide +kernel
    exact h
  expanded := by
    have h : ∀ ts ∈ goTerms, (∀ t ∈ ts, ¬ ((101 : ℕ) : ℤ) ∣ t.numer) ∧ (ts.map (Text.Mon.vec 2)).Nodup ∧
        ∀ t ∈ ts, ∑ i, t.vec 2 i < 65536 := by decide +kernel
    exact fun ts hts => ⟨(h ts hts).1, (h ts hts).2.1, (h ts hts).2.2⟩

theorem go_poly : goTerms.map (Text.poly 101 2) = goG.map (toMv 101) := by
  have h : ∀ (t : Text.Mon) (u : Fin 2 → ℕ) (c : ℕ), t.vec 2 = u → ((t.numer : ℤ) : ZMod 101) = ((c : ℕ) : ZMod 101) →
      t.poly 101 2 = MvPolynomial.monomial (F4.fs u) ((c : ℕ) : ZMod 101) := by
    rintro t u c rfl h
    unfold Text.Mon.poly
    rw [h]; rfl
  simp only [goTerms, goG, List.map_cons, List.map_nil, Text.poly, toMv]
  rw [h _ ![0, 2] 1 (by decide +kernel) (by decide +kernel), h _ ![1, 1] 1 (by decide +kernel) (by decide +kernel),
    h _ ![0, 1] 100 (by decide +kernel) (by decide +kernel), h _ ![2, 0] 1 (by decide +kernel) (by decide +kernel),
    h _ ![1, 0] 100 (by decide +kernel) (by decide +kernel)]

theorem go_ideal : inputIdeal 2 101 goTerms = goI := by
  unfold inputIdeal goI
  congr 1
  ext q
  have h1 : (∃ ts ∈ goTerms, q = Text.poly 101 2 ts) ↔ q ∈ goTerms.map (Text.poly 101 2) := by
    rw [List.mem_map]; exact exists_congr fun _ => and_congr_right' eq_comm
  have h2 : (∃ ts ∈ goG, q = toMv 101 ts) ↔ q ∈ goG.map (toMv 101) := by
    rw [List.mem_map]; exact exists_congr fun _ => and_congr_right' eq_comm
  exact h1.trans (go_poly ▸ h2.symm)

/-- Every result of F4 for this file. -/
theorem go_f4 {G : List (Poly 2)} (hB : Basis 0 0 101 true ((goTerms.map (raw0 2 101)).map rawPoly) G) : G = goG := by
  have hp : Fact (Nat.Prime 101) := ⟨by norm_num⟩
  obtain ⟨-, h1, h2, h3⟩ := basis_reduced (n := 2) (by norm_num) (raw0_ok goFile_ok) hB
  have h1 : IsReducedGroebner OKind.drl.mo (ExportF4.arrayIdeal 101 (goTerms.map (raw0 2 101))) { g | ∃ f ∈ G, g = toMv 101 f } := h1
  rw [ideal_raw0, go_ideal] at h1
  have hset := Groebner.reduced_unique h1 (goG_groebner)
  have hadm := OKind.drl.adm (n := 2)
  have hnd : ∀ {l : List (Poly 2)}, l.Pairwise (fun a b => OKind.drl.lt (F4.lead a) (F4.lead b)) → l.Nodup := by
    intro l hl
    refine List.Pairwise.imp ?_ hl
    rintro a b hab rfl
    exact hadm.irrefl _ hab
  have hperm : G.Perm goG := (List.perm_ext_iff_of_nodup (hnd h3) (hnd goG_sorted)).mpr fun f => by
    constructor
    · intro hf
      obtain ⟨g, hg, he⟩ := hset.subset ⟨f, hf, rfl⟩
      rw [toMv_injOn (h2 f hf) (goG_ok g hg) he]
      exact hg
    · intro hf
      obtain ⟨g, hg, he⟩ := hset.symm.subset ⟨f, hf, rfl⟩
      rw [toMv_injOn (goG_ok f hf) (h2 g hg) he]
      exact hg
  exact hperm.eq_of_pairwise (le := fun a b => OKind.drl.lt (F4.lead a) (F4.lead b))
    (fun a b _ _ hab hba => absurd (hadm.trans _ _ _ hab hba) (hadm.irrefl _)) h3 goG_sorted

/-- The hypothesis of `C78_once` is met by a loop with one restart. -/
example : have : Fact (Nat.Prime 101) := ⟨by norm_num⟩
    ∃ g, Loop 2 2 101 (gensOf twoNames 101 (goTerms.map (ffPoly 2 101))) g false [.generic [3, 5, 7]] := by
  intro hp
  obtain ⟨G, hB⟩ := basis_exists (n := 2) (p := 101) (by norm_num) (by norm_num) (by norm_num) (raw0_ok goFile_ok)
  obtain rfl := go_f4 hB
  exact ⟨_, Loop.generic [3, 5, 7] .start ⟨_, goG, readGens_gensOf twoNames 101 goTerms, hB, go_outcome⟩ (by
    intro i hi
    have hi : i < 3 := hi
    interval_cases i <;> decide) rfl⟩

end SolveOnce
end Verif.Props
