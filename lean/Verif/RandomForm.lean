import Verif.Fglm
import Mathlib.RingTheory.AdjoinRoot
import Mathlib.Algebra.Squarefree.Basic
import Mathlib.LinearAlgebra.Basis.VectorSpace
import Mathlib.FieldTheory.Minpoly.Field
import Mathlib.Algebra.Polynomial.Roots
import Mathlib.Data.Fintype.Pi

/-! Lemmas on random linear forms: how many of them pass the verification of the coordinates although the coordinate is not one of a solution
(fglm_core.c 1252-1361). -/

namespace Verif.Fglm

open Polynomial Verif.BM Verif.Spec Verif.Hankel

section Count
variable {K W : Type*} [Field K] [Fintype K] [AddCommGroup W] [Module K W] [Fintype W]

/-- If a set has at most `m` points on each line in direction `d` then at most a fraction `m / |K|` of all vectors is in it. -/
theorem count_lines (S : W → Prop) [DecidablePred S] (d : W) (m : ℕ) (h : ∀ w, (Finset.univ.filter fun c : K => S (w + c • d)).card ≤ m) :
    Fintype.card K * (Finset.univ.filter S).card ≤ m * Fintype.card W := by
  have h1 : ∀ c : K, (Finset.univ.filter fun w : W => S (w + c • d)).card = (Finset.univ.filter S).card := by
    intro c
    refine Finset.card_bij (fun w _ => w + c • d) ?_ ?_ ?_
    · intro w hw
      simpa using hw
    · intro a _ b _ hab
      exact add_right_cancel hab
    · intro b hb
      refine ⟨b - c • d, ?_, by simp⟩
      simpa using hb
  have h2 : ∑ c : K, (Finset.univ.filter fun w : W => S (w + c • d)).card = ∑ w : W, (Finset.univ.filter fun c : K => S (w + c • d)).card := by
    simp only [Finset.card_filter]
    exact Finset.sum_comm
  have h3 : ∑ c : K, (Finset.univ.filter fun w : W => S (w + c • d)).card = Fintype.card K * (Finset.univ.filter S).card := by
    rw [Finset.sum_congr rfl fun c _ => h1 c]
    simp
  rw [← h3, h2]
  calc ∑ w : W, (Finset.univ.filter fun c : K => S (w + c • d)).card ≤ ∑ _w : W, m := Finset.sum_le_sum fun w _ => h w
    _ = m * Fintype.card W := by simp [mul_comm]

end Count

/-- Values in `K` at which a polynomial over an extension is zero. -/
theorem card_roots_le {K F : Type*} [Field K] [Fintype K] [Field F] [Algebra K F] (f : F[X]) (hf : f ≠ 0) (S : K → Prop) [DecidablePred S]
    (hS : ∀ c, S c → f.eval (algebraMap K F c) = 0) : (Finset.univ.filter S).card ≤ f.natDegree := by
  classical
  refine le_trans ?_ (Polynomial.card_roots' f)
  refine le_trans ?_ (Multiset.toFinset_card_le _)
  refine Finset.card_le_card_of_injOn (algebraMap K F) ?_ (FaithfulSMul.algebraMap_injective K F).injOn
  intro c hc
  simp only [Finset.coe_filter, Finset.mem_univ, true_and, Set.mem_ofPred_eq] at hc
  simp only [Finset.mem_coe, Multiset.mem_toFinset]
  exact (mem_roots hf).mpr (hS c hc)

variable {K : Type*} [Field K] {A : Type*} [CommRing A] [Algebra K A]

theorem lseq_form_add (l l' : A →ₗ[K] K) (x a : A) (c : K) : lseq (l + c • l') x a = lseq l x a + c • lseq l' x a := by
  funext i
  simp [lseq]

theorem num_form_add (V : K[X]) (l l' : A →ₗ[K] K) (x a : A) (c : K) : num V (l + c • l') x a = num V l x a + C c * num V l' x a := by
  rw [num, lseq_form_add, tablePoly_add, tablePoly_smul]
  rfl

/-- A squarefree polynomial divides every polynomial (not zero) that all its irreducible factors divide. -/
theorem dvd_of_primes {g h : K[X]} (hg : Squarefree g) (hh : h ≠ 0) (H : ∀ q, Irreducible q → q.Monic → q ∣ g → q ∣ h) : g ∣ h := by
  classical
  have hg0 := hg.ne_zero
  rw [UniqueFactorizationMonoid.dvd_iff_normalizedFactors_le_normalizedFactors hg0 hh,
    Multiset.le_iff_subset ((UniqueFactorizationMonoid.squarefree_iff_nodup_normalizedFactors hg0).mp hg)]
  intro q hq
  rw [Polynomial.mem_normalizedFactors_iff hg0] at hq
  rw [Polynomial.mem_normalizedFactors_iff hh]
  exact ⟨hq.1, hq.2.1, H q hq.1 hq.2.1 hq.2.2⟩

theorem lseq_eq_zero {l : A →ₗ[K] K} {x b : A} : lseq l x b = 0 ↔ ∀ P : K[X], l (aeval x P * b) = 0 := by
  constructor
  · intro h P
    induction P using Polynomial.induction_on' with
    | add f g hf hg => rw [map_add, add_mul, map_add, hf, hg, add_zero]
    | monomial i c =>
      have := congrFun h i
      simp only [lseq, Pi.zero_apply] at this
      rw [← C_mul_X_pow_eq_monomial, map_mul (aeval x), aeval_C, map_pow, aeval_X, mul_assoc, ← Algebra.smul_def, map_smul, this, smul_zero]
  · intro h
    funext i
    simpa [lseq] using h (X ^ i)

/-- A direction: if `u(x) a` is no multiple of `u(x)` by a polynomial in `x`, then some linear form has numerator zero for 1 and not zero for `a`, modulo `q`. -/
theorem exists_direction {V q u : K[X]} (hV0 : V ≠ 0) (hV : V = q * u) {x : A} (hx : aeval x V = 0) {a b : A}
    (h : ¬ ∃ κ : K[X], aeval x u * (a - aeval x κ * b) = 0) : ∃ l : A →ₗ[K] K, q ∣ num V l x b ∧ ¬ q ∣ num V l x a := by
  let U : Submodule K A := LinearMap.range ((LinearMap.mulRight K (aeval x u * b)).comp (aeval x : K[X] →ₐ[K] A).toLinearMap)
  have hnot : aeval x u * a ∉ U := by
    rintro ⟨κ, hκ⟩
    apply h
    refine ⟨κ, ?_⟩
    simp only [LinearMap.comp_apply, LinearMap.mulRight_apply, AlgHom.toLinearMap_apply] at hκ
    linear_combination -hκ
  obtain ⟨l, hl1, hl2⟩ := Submodule.exists_le_ker_of_notMem hnot
  refine ⟨l, ?_, ?_⟩
  · rw [num_dvd hV0 hV hx, lseq_eq_zero]
    intro P
    exact hl2 ⟨P, rfl⟩
  · rw [num_dvd hV0 hV hx, lseq_eq_zero]
    intro hc
    have := hc 1
    rw [map_one, one_mul] at this
    exact hl1 this

/-- What an accepted coordinate says, with the gcd of the eliminating polynomial and the table polynomial. -/
theorem accepted_rel {xg : K[X] → K[X] → K[X] × K[X] × K[X]} (hxg : XgcdOk xg) {V e Z2 : K[X]} {l : A →ₗ[K] K} {x : A}
    (hZ : e ∣ Z2 * num V l x 1 - 1) {a a2 : A} {lam : K}
    (hv : verify xg e V (coordTable e V Z2 (lseq l x a)) lam (lseq l x 1) (lseq l x a) (lseq l x a2)) :
    e ∣ num V l x a * (num V l x a + C lam * num V l x 1) -
      (xg e (num V l x a + C lam * num V l x 1)).1 * (num V l x a2 + C lam * num V l x a) * num V l x 1 := by
  have ew1 : (fun i => lseq l x a i + lam * lseq l x 1 i) = lseq l x a + lam • lseq l x 1 := rfl
  have ew2 : (fun i => lseq l x a2 i + lam * lseq l x a i) = lseq l x a2 + lam • lseq l x a := rfl
  unfold verify at hv
  rw [ew1, ew2] at hv
  have t1 : tablePoly V (lseq l x a + lam • lseq l x 1) = num V l x a + C lam * num V l x 1 := by
    rw [tablePoly_add, tablePoly_smul]; rfl
  have t2 : tablePoly V (lseq l x a2 + lam • lseq l x a) = num V l x a2 + C lam * num V l x a := by
    rw [tablePoly_add, tablePoly_smul]; rfl
  unfold coordTable at hv
  rw [t1, t2] at hv
  have t3 : tablePoly V (lseq l x a) = num V l x a := rfl
  rw [t3] at hv
  generalize num V l x a = N1 at *
  generalize num V l x 1 = N0 at *
  generalize num V l x a2 = N2 at *
  have hmod := neg_injective hv
  have hb := hxg.bez e (N1 + C lam * N0)
  generalize (xg e (N1 + C lam * N0)).1 = g at *
  generalize (xg e (N1 + C lam * N0)).2.1 = s at *
  generalize (xg e (N1 + C lam * N0)).2.2 = Z at *
  have d1 : e ∣ N1 * Z2 - (N2 + C lam * N1) * Z := by
    have h1 := EuclideanDomain.div_add_mod (N1 * Z2) e
    have h2 := EuclideanDomain.div_add_mod ((N2 + C lam * N1) * Z) e
    refine ⟨N1 * Z2 / e - (N2 + C lam * N1) * Z / e, ?_⟩
    linear_combination hmod - h1 + h2
  obtain ⟨c, hc⟩ := hZ
  obtain ⟨c1, hc1⟩ := d1
  refine ⟨c1 * N0 * (N1 + C lam * N0) - N1 * (N1 + C lam * N0) * c - s * (N2 + C lam * N1) * N0, ?_⟩
  linear_combination (N0 * (N1 + C lam * N0)) * hc1 - (N1 * (N1 + C lam * N0)) * hc + (N2 + C lam * N1) * N0 * hb

section Bounds
variable [Fintype K] {D : ℕ} (B : Module.Basis (Fin D) K A)

/-- The linear form of a random vector. -/
noncomputable def formOf (v : Fin D → K) : A →ₗ[K] K := B.constr K v

omit [Fintype K] in
theorem formOf_line (v d : Fin D → K) (c : K) : formOf B (v + c • d) = formOf B v + c • formOf B d := by
  simp [formOf]

omit [Fintype K] in
theorem formOf_surj (l : A →ₗ[K] K) : ∃ d, formOf B d = l := ⟨(B.constr K).symm l, (B.constr K).apply_symm_apply l⟩

omit [Field K] in
theorem card_vectors : Fintype.card (Fin D → K) = Fintype.card K ^ D := by simp

open Classical in
/-- Forms that are zero at an element that is not zero. -/
theorem count_zero {s : A} (hs : s ≠ 0) :
    Fintype.card K * (Finset.univ.filter fun v : Fin D → K => formOf B v s = 0).card ≤ Fintype.card K ^ D := by
  obtain ⟨l, hl, -⟩ := Submodule.exists_le_ker_of_notMem (p := (⊥ : Submodule K A)) (v := s) (by simpa using hs)
  obtain ⟨d, rfl⟩ := formOf_surj B l
  have := count_lines (K := K) (fun v : Fin D → K => formOf B v s = 0) d 1 (by
    intro w
    refine le_trans (card_roots_le (F := K) (C (formOf B d s) * X + C (formOf B w s)) ?_ _ ?_) (natDegree_linear_le)
    · intro h0
      have := congrArg (fun f => coeff f 1) h0
      simp at this
      exact hl this
    · intro c hc
      rw [formOf_line] at hc
      simp at hc ⊢
      linear_combination hc)
  rw [one_mul, card_vectors] at this
  convert this

open Classical in
/-- Forms whose table polynomial is divisible by `q`. -/
theorem count_dvd {V q u : K[X]} (hq : Irreducible q) (hV0 : V ≠ 0) (hV : V = q * u) {x : A} (hx : aeval x V = 0) {a : A}
    (h : aeval x u * a ≠ 0) :
    Fintype.card K * (Finset.univ.filter fun v : Fin D → K => q ∣ num V (formOf B v) x a).card ≤ Fintype.card K ^ D := by
  obtain ⟨l, -, hl⟩ := exists_direction hV0 hV hx (a := a) (b := 0) (by simpa using h)
  obtain ⟨d, rfl⟩ := formOf_surj B l
  have : Fact (Irreducible q) := ⟨hq⟩
  have := count_lines (K := K) (fun v : Fin D → K => q ∣ num V (formOf B v) x a) d 1 (by
    intro w
    refine le_trans (card_roots_le (F := AdjoinRoot q)
      (C (AdjoinRoot.mk q (num V (formOf B d) x a)) * X + C (AdjoinRoot.mk q (num V (formOf B w) x a))) ?_ _ ?_) (natDegree_linear_le)
    · intro h0
      have := congrArg (fun f => coeff f 1) h0
      simp [AdjoinRoot.mk_eq_zero] at this
      exact hl this
    · intro c hc
      rw [formOf_line, num_form_add, ← AdjoinRoot.mk_eq_zero, map_add, map_mul, AdjoinRoot.mk_C] at hc
      simp only [eval_add, eval_mul, eval_C, eval_X, AdjoinRoot.algebraMap_eq]
      linear_combination hc)
  rw [one_mul, card_vectors] at this
  convert this

open Classical in
/-- Forms that satisfy the relation of the verification modulo `q`. -/
theorem count_quadratic {V q u : K[X]} (hq : Irreducible q) (hV0 : V ≠ 0) (hV : V = q * u) {x : A} (hx : aeval x V = 0) {a : A} (a2 : A)
    (h : ¬ ∃ κ : K[X], aeval x u * (a - aeval x κ) = 0) (lam : K) (g : K[X]) :
    Fintype.card K * (Finset.univ.filter fun v : Fin D → K => q ∣ num V (formOf B v) x a * (num V (formOf B v) x a + C lam * num V (formOf B v) x 1) -
      g * (num V (formOf B v) x a2 + C lam * num V (formOf B v) x a) * num V (formOf B v) x 1).card ≤ 2 * Fintype.card K ^ D := by
  obtain ⟨l, hl1, hl⟩ := exists_direction hV0 hV hx (a := a) (b := 1) (by simpa using h)
  obtain ⟨d, rfl⟩ := formOf_surj B l
  have : Fact (Irreducible q) := ⟨hq⟩
  set m := AdjoinRoot.mk q with hm
  have := count_lines (K := K) (fun v : Fin D → K => q ∣ num V (formOf B v) x a * (num V (formOf B v) x a + C lam * num V (formOf B v) x 1) -
      g * (num V (formOf B v) x a2 + C lam * num V (formOf B v) x a) * num V (formOf B v) x 1) d 2 (by
    intro w
    have hz : m (num V (formOf B d) x 1) = 0 := AdjoinRoot.mk_eq_zero.mpr hl1
    have hnz : m (num V (formOf B d) x a) ≠ 0 := fun h0 => hl (AdjoinRoot.mk_eq_zero.mp h0)
    set N0 := m (num V (formOf B w) x 1)
    set N1 := m (num V (formOf B w) x a)
    set N2 := m (num V (formOf B w) x a2)
    set M1 := m (num V (formOf B d) x a) with hM1
    set M2 := m (num V (formOf B d) x a2)
    set L := m (C lam)
    refine le_trans (card_roots_le (F := AdjoinRoot q)
      (C (M1 ^ 2) * X ^ 2 + C (N1 * M1 + M1 * (N1 + L * N0) - m g * (M2 + L * M1) * N0) * X +
        C (N1 * (N1 + L * N0) - m g * (N2 + L * N1) * N0)) ?_ _ ?_) (natDegree_quadratic_le)
    · intro h0
      have := congrArg (fun f => coeff f 2) h0
      simp only [coeff_add, coeff_C_mul, coeff_X_pow, coeff_X, coeff_C, coeff_zero] at this
      norm_num at this
      exact hnz this
    · intro c hc
      rw [formOf_line, num_form_add, num_form_add, num_form_add, ← AdjoinRoot.mk_eq_zero, ← hm] at hc
      simp only [map_sub, map_mul, map_add, hz, mul_zero, add_zero] at hc
      rw [show m (C c) = AdjoinRoot.of q c from AdjoinRoot.mk_C c] at hc
      simp only [eval_add, eval_mul, eval_C, eval_X, eval_pow, AdjoinRoot.algebraMap_eq]
      linear_combination hc)
  rw [card_vectors] at this
  convert this

omit [Fintype K] in
open Classical UniqueFactorizationMonoid in
theorem card_factors {V : K[X]} (hV : V.Monic) : (normalizedFactors V).toFinset.card ≤ V.natDegree := by
  refine (Multiset.toFinset_card_le _).trans ?_
  have h0 : (0 : K[X]) ∉ normalizedFactors V := zero_notMem_normalizedFactors V
  have h1 : (normalizedFactors V).prod.natDegree = V.natDegree :=
    natDegree_eq_of_degree_eq (degree_eq_degree_of_associated (prod_normalizedFactors hV.ne_zero))
  rw [← h1, natDegree_multiset_prod _ h0]
  have : ∀ q ∈ normalizedFactors V, 1 ≤ q.natDegree := by
    intro q hq
    exact (irreducible_of_normalized_factor q hq).natDegree_pos
  calc (normalizedFactors V).card = ((normalizedFactors V).map fun _ => 1).sum := by simp
    _ ≤ ((normalizedFactors V).map natDegree).sum := Multiset.sum_map_le_sum_map _ _ this

/-- The relation that holds for the coordinates of a solution over the roots of `q`: the coordinate is `κ` there. -/
def HasCoord (V : K[X]) (x a : A) (q : K[X]) : Prop := ∃ u κ : K[X], V = q * u ∧ aeval x u * (a - aeval x κ) = 0

/-- The gcd of the eliminating polynomial and the table polynomial of the verification, for most vectors. -/
def IsGcd (V : K[X]) (x b : A) (g : K[X]) : Prop := g.Monic ∧ Squarefree g ∧
  ∀ q, Irreducible q → q.Monic → (q ∣ g ↔ ∃ u, V = q * u ∧ aeval x u * b = 0)

omit [Fintype K] in
theorem IsGcd.unique {V : K[X]} {x b : A} {g h : K[X]} (hg : IsGcd V x b g) (hh : IsGcd V x b h) : g = h := by
  refine eq_of_monic_of_associated hg.1 hh.1 (associated_of_dvd_dvd ?_ ?_)
  · exact dvd_of_primes hg.2.1 hh.1.ne_zero fun q hq hm hd => (hh.2.2 q hq hm).mpr ((hg.2.2 q hq hm).mp hd)
  · exact dvd_of_primes hh.2.1 hg.1.ne_zero fun q hq hm hd => (hg.2.2 q hq hm).mpr ((hh.2.2 q hq hm).mp hd)

open Classical UniqueFactorizationMonoid in
/-- For all but a fraction of at most `(3 m + 1) D / |K|` of the vectors the scalar sequence has the minimal polynomial of `x`, and the verification of a coordinate
succeeds only if the coordinate is one of a solution, over each root of the eliminating polynomial. -/
theorem bad_vectors [Nontrivial A] (x : A) {m : ℕ} (a a2 : Fin m → A) (lam : Fin m → K) : ∃ S : Finset (Fin D → K),
    Fintype.card K * S.card ≤ (3 * m + 1) * D * Fintype.card K ^ D ∧ ∀ v, v ∉ S →
      IsMinPoly (minpoly K x) (lseq (formOf B v) x 1) ∧
      ∀ (k : Fin m) (xg : K[X] → K[X] → K[X] × K[X] × K[X]) (e Z2 : K[X]), XgcdOk xg → Squarefree e → e ∣ minpoly K x → (∃ N, minpoly K x ∣ e ^ N) →
        e ∣ Z2 * num (minpoly K x) (formOf B v) x 1 - 1 →
        verify xg e (minpoly K x) (coordTable e (minpoly K x) Z2 (lseq (formOf B v) x (a k))) (lam k) (lseq (formOf B v) x 1)
          (lseq (formOf B v) x (a k)) (lseq (formOf B v) x (a2 k)) →
        ∀ q, Irreducible q → q.Monic → q ∣ minpoly K x → HasCoord (minpoly K x) x (a k) q := by
  have hfin : Module.Finite K A := Module.Finite.of_basis B
  have hrank : Module.finrank K A = D := by rw [Module.finrank_eq_card_basis B, Fintype.card_fin]
  have hVm : (minpoly K x).Monic := minpoly.monic (Algebra.IsIntegral.isIntegral x)
  have hVx : aeval x (minpoly K x) = 0 := minpoly.aeval K x
  have hVd : (minpoly K x).natDegree ≤ D := hrank ▸ minpoly.natDegree_le x
  have hVmin : ∀ q u : K[X], Irreducible q → minpoly K x = q * u → aeval x u ≠ 0 := by
    intro q u hq hV h0
    have h1 := minpoly.dvd K x h0
    have hu : u ≠ 0 := by
      rintro rfl
      exact hVm.ne_zero (by rw [hV, mul_zero])
    rw [hV] at h1
    have h2 : q * u ∣ 1 * u := by rwa [one_mul]
    exact hq.not_isUnit (isUnit_of_dvd_one ((mul_dvd_mul_iff_right hu).mp h2))
  generalize minpoly K x = V at *
  -- the quotients by the factors
  let Q := (normalizedFactors V).toFinset
  have hQ : ∀ q, q ∈ Q ↔ Irreducible q ∧ q.Monic ∧ q ∣ V := by
    intro q
    rw [Multiset.mem_toFinset, Polynomial.mem_normalizedFactors_iff hVm.ne_zero]
  have hex : ∀ q ∈ Q, ∃ u, V = q * u := fun q hq => ((hQ q).mp hq).2.2
  choose! u hu using hex
  let g : Fin m → K[X] := fun k => if h : ∃ g, IsGcd V x (a k + lam k • 1) g then h.choose else 1
  have hg : ∀ k g', IsGcd V x (a k + lam k • 1) g' → g' = g k := by
    intro k g' h
    have hE : ∃ g, IsGcd V x (a k + lam k • 1) g := ⟨g', h⟩
    simp only [g, dif_pos hE]
    exact h.unique hE.choose_spec
  -- the sets
  let E0 : K[X] → Finset (Fin D → K) := fun q => Finset.univ.filter fun v => formOf B v (aeval x (u q)) = 0
  let E1 : K[X] → Fin m → Finset (Fin D → K) := fun q k =>
    if aeval x (u q) * (a k + lam k • 1) = 0 then ∅ else Finset.univ.filter fun v => q ∣ num V (formOf B v) x (a k + lam k • 1)
  let E2 : K[X] → Fin m → Finset (Fin D → K) := fun q k =>
    if ∃ κ : K[X], aeval x (u q) * (a k - aeval x κ) = 0 then ∅ else
      Finset.univ.filter fun v => q ∣ num V (formOf B v) x (a k) * (num V (formOf B v) x (a k) + C (lam k) * num V (formOf B v) x 1) -
        g k * (num V (formOf B v) x (a2 k) + C (lam k) * num V (formOf B v) x (a k)) * num V (formOf B v) x 1
  have c0 : ∀ q ∈ Q, Fintype.card K * (E0 q).card ≤ Fintype.card K ^ D := fun q hq =>
    count_zero B (hVmin q _ ((hQ q).mp hq).1 (hu q hq))
  have c1 : ∀ q ∈ Q, ∀ k, Fintype.card K * (E1 q k).card ≤ Fintype.card K ^ D := by
    intro q hq k
    simp only [E1]
    split_ifs with h
    · simp
    · exact count_dvd B ((hQ q).mp hq).1 hVm.ne_zero (hu q hq) hVx h
  have c2 : ∀ q ∈ Q, ∀ k, Fintype.card K * (E2 q k).card ≤ 2 * Fintype.card K ^ D := by
    intro q hq k
    simp only [E2]
    split_ifs with h
    · simp
    · exact count_quadratic B ((hQ q).mp hq).1 hVm.ne_zero (hu q hq) hVx _ h _ _
  refine ⟨Q.biUnion fun q => E0 q ∪ Finset.univ.biUnion fun k => E1 q k ∪ E2 q k, ?_, ?_⟩
  · have h1 : ∀ q ∈ Q, Fintype.card K * (E0 q ∪ Finset.univ.biUnion fun k => E1 q k ∪ E2 q k).card ≤ (3 * m + 1) * Fintype.card K ^ D := by
      intro q hq
      have h2 : Fintype.card K * (Finset.univ.biUnion fun k => E1 q k ∪ E2 q k).card ≤ 3 * m * Fintype.card K ^ D := by
        calc Fintype.card K * (Finset.univ.biUnion fun k => E1 q k ∪ E2 q k).card
            ≤ Fintype.card K * ∑ k : Fin m, (E1 q k ∪ E2 q k).card := Nat.mul_le_mul_left _ Finset.card_biUnion_le
          _ = ∑ k : Fin m, Fintype.card K * (E1 q k ∪ E2 q k).card := Finset.mul_sum _ _ _
          _ ≤ ∑ _k : Fin m, 3 * Fintype.card K ^ D := by
              refine Finset.sum_le_sum fun k _ => ?_
              have := Finset.card_union_le (E1 q k) (E2 q k)
              have := Nat.mul_le_mul_left (Fintype.card K) this
              have := c1 q hq k
              have := c2 q hq k
              linarith
          _ = 3 * m * Fintype.card K ^ D := by
              rw [Finset.sum_const, Finset.card_univ, Fintype.card_fin, smul_eq_mul]
              ring
      have h3 := Nat.mul_le_mul_left (Fintype.card K) (Finset.card_union_le (E0 q) (Finset.univ.biUnion fun k => E1 q k ∪ E2 q k))
      have := c0 q hq
      linarith
    calc Fintype.card K * (Q.biUnion fun q => E0 q ∪ Finset.univ.biUnion fun k => E1 q k ∪ E2 q k).card
        ≤ Fintype.card K * ∑ q ∈ Q, (E0 q ∪ Finset.univ.biUnion fun k => E1 q k ∪ E2 q k).card := Nat.mul_le_mul_left _ Finset.card_biUnion_le
      _ = ∑ q ∈ Q, Fintype.card K * (E0 q ∪ Finset.univ.biUnion fun k => E1 q k ∪ E2 q k).card := Finset.mul_sum _ _ _
      _ ≤ ∑ _q ∈ Q, (3 * m + 1) * Fintype.card K ^ D := Finset.sum_le_sum h1
      _ = Q.card * ((3 * m + 1) * Fintype.card K ^ D) := by rw [Finset.sum_const, smul_eq_mul]
      _ ≤ D * ((3 * m + 1) * Fintype.card K ^ D) := Nat.mul_le_mul_right _ ((card_factors hVm).trans hVd)
      _ = (3 * m + 1) * D * Fintype.card K ^ D := by ring
  · intro v hv
    have hv' : ∀ q ∈ Q, v ∉ E0 q ∧ ∀ k, v ∉ E1 q k ∧ v ∉ E2 q k := by
      intro q hq
      refine ⟨fun h => hv ?_, fun k => ⟨fun h => hv ?_, fun h => hv ?_⟩⟩
      · exact Finset.mem_biUnion.mpr ⟨q, hq, Finset.mem_union_left _ h⟩
      · exact Finset.mem_biUnion.mpr ⟨q, hq, Finset.mem_union_right _ (Finset.mem_biUnion.mpr ⟨k, Finset.mem_univ _, Finset.mem_union_left _ h⟩)⟩
      · exact Finset.mem_biUnion.mpr ⟨q, hq, Finset.mem_union_right _ (Finset.mem_biUnion.mpr ⟨k, Finset.mem_univ _, Finset.mem_union_right _ h⟩)⟩
    clear hv c0 c1 c2
    set l := formOf B v with hl
    constructor
    · refine ⟨hVm, annih_of_aeval 1 hVx, fun f hf => ?_⟩
      by_contra hnd
      obtain ⟨r, hr⟩ := EuclideanDomain.gcd_dvd_left V f
      have hbez := EuclideanDomain.gcd_eq_gcd_ab V f
      have hdf := EuclideanDomain.gcd_dvd_right V f
      generalize EuclideanDomain.gcd V f = d at *
      have hr0 : r ≠ 0 := by
        rintro rfl
        exact hVm.ne_zero (by rw [hr, mul_zero])
      have hru : ¬ IsUnit r := by
        intro hru
        apply hnd
        rw [hr]
        exact (hru.mul_right_dvd).mpr hdf
      obtain ⟨q, hq⟩ := exists_mem_normalizedFactors hr0 hru
      rw [Polynomial.mem_normalizedFactors_iff hr0] at hq
      obtain ⟨q1, q2, r', rfl⟩ := hq
      have hqQ : q ∈ Q := (hQ q).mpr ⟨q1, q2, ⟨d * r', by rw [hr]; ring⟩⟩
      have huq : u q = d * r' := by
        refine mul_left_cancel₀ q1.ne_zero ?_
        rw [← hu q hqQ, hr]
        ring
      apply (hv' q hqQ).1
      simp only [E0, Finset.mem_filter, Finset.mem_univ, true_and]
      have h1 := (annihilates_iff _ _).mp hf
      rw [act_lseq] at h1
      have h2 := lseq_eq_zero.mp h1 (EuclideanDomain.gcdB V f * r')
      rw [← h2, huq, hbez]
      congr 1
      simp only [map_mul, map_add, hVx, zero_mul, zero_add, mul_one]
      ring
    · intro k xg e Z2 hxg he hed ⟨N, hN⟩ hZ hver
      have hrel := accepted_rel hxg hZ hver
      have hnum : num V l x (a k) + C (lam k) * num V l x 1 = num V l x (a k + lam k • 1) := by rw [num_add, num_smul]
      have hgk : (xg e (num V l x (a k) + C (lam k) * num V l x 1)).1 = g k := by
        apply hg
        rw [hnum]
        refine ⟨hxg.monic _ _ (Or.inl he.ne_zero), he.squarefree_of_dvd (hxg.left _ _), fun q hq hqm => ?_⟩
        constructor
        · intro hd
          have hqQ : q ∈ Q := (hQ q).mpr ⟨hq, hqm, (hd.trans (hxg.left _ _)).trans hed⟩
          refine ⟨u q, hu q hqQ, ?_⟩
          by_contra hne
          apply ((hv' q hqQ).2 k).1
          simp only [E1, if_neg hne, Finset.mem_filter, Finset.mem_univ, true_and]
          exact hd.trans (hxg.right _ _)
        · rintro ⟨u', hu', h0⟩
          have hqe : q ∣ e := hq.prime.dvd_of_dvd_pow ((Dvd.intro u' hu'.symm).trans hN)
          have hqb : q ∣ num V l x (a k + lam k • 1) := by
            rw [num_dvd hVm.ne_zero hu' hVx, h0, lseq_eq_zero]
            simp
          rw [← hxg.bez]
          exact dvd_add (dvd_mul_of_dvd_right hqe _) (dvd_mul_of_dvd_right hqb _)
      rw [hgk] at hrel
      intro q hq hqm hqV
      have hqQ : q ∈ Q := (hQ q).mpr ⟨hq, hqm, hqV⟩
      have hqe : q ∣ e := hq.prime.dvd_of_dvd_pow (hqV.trans hN)
      have hE := ((hv' q hqQ).2 k).2
      by_cases hk : ∃ κ : K[X], aeval x (u q) * (a k - aeval x κ) = 0
      · obtain ⟨κ, hκ⟩ := hk
        exact ⟨u q, κ, hu q hqQ, hκ⟩
      · simp only [E2, if_neg hk, Finset.mem_filter, Finset.mem_univ, true_and] at hE
        exact absurd (hqe.trans hrel) hE

end Bounds

end Verif.Fglm
