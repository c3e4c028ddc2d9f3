import Verif.RandomForm
import Verif.Spec.Hankel
import Mathlib.RingTheory.PowerBasis
import Mathlib.LinearAlgebra.Dual.Lemmas

/-! Lemmas on random linear forms in shape position: how many of them lead into the branch of `invert_hankel_matrix` that reads outside an array
(fglm_core.c 256-354). -/

namespace Verif.Fglm

open Polynomial Verif.BM Verif.Spec Verif.Hankel

variable {K : Type*} [Field K] {A : Type*} [CommRing A] [Algebra K A] {D : ℕ}

/-- The coefficient of the highest power is a nondegenerate form. -/
theorem coord_nondeg (pb : Module.Basis (Fin D) K A) {x : A} (hpb : ∀ i, pb i = x ^ i.val) (hD : 0 < D) {a : A}
    (ha : ∀ b, pb.coord ⟨D - 1, by omega⟩ (a * b) = 0) : a = 0 := by
  have key : ∀ k, ∀ hk : k < D, pb.repr a ⟨D - 1 - k, by omega⟩ = 0 := by
    intro k
    induction k using Nat.strong_induction_on with
    | _ k ih =>
      intro hk
      have h := ha (x ^ k)
      conv at h => lhs; rw [← pb.sum_repr a, Finset.sum_mul, map_sum]
      rw [Finset.sum_eq_single ⟨D - 1 - k, by omega⟩] at h
      · rw [hpb, smul_mul_assoc, ← pow_add, map_smul, show D - 1 - k + k = (⟨D - 1, by omega⟩ : Fin D).val by simp; omega, ← hpb,
          Module.Basis.coord_apply, pb.repr_self] at h
        simpa using h
      · intro i _ hi
        rw [hpb, smul_mul_assoc, ← pow_add, map_smul]
        rcases Nat.lt_or_ge (i.val + k) D with hlt | hge
        · have hne : (⟨i.val + k, hlt⟩ : Fin D) ≠ ⟨D - 1, by omega⟩ := by
            intro h
            apply hi
            have := congrArg Fin.val h
            simp only at this
            apply Fin.ext
            simp only
            omega
          have := hpb ⟨i.val + k, hlt⟩
          simp only at this
          rw [← this, Module.Basis.coord_apply, pb.repr_self, Finsupp.single_eq_of_ne hne.symm, smul_zero]
        · have := ih (D - 1 - i.val) (by omega) (by omega)
          have e : (⟨D - 1 - (D - 1 - i.val), by omega⟩ : Fin D) = i := Fin.ext (by simp only; omega)
          rw [e] at this
          rw [this, zero_smul]
      · simp
  apply pb.ext_elem
  intro i
  have := key (D - 1 - i.val) (by omega)
  have e : (⟨D - 1 - (D - 1 - i.val), by omega⟩ : Fin D) = i := Fin.ext (by simp only; omega)
  rw [e] at this
  rw [this, map_zero, Finsupp.zero_apply]

theorem coord_surj (pb : Module.Basis (Fin D) K A) {x : A} (hpb : ∀ i, pb i = x ^ i.val) (hD : 0 < D) (l : A →ₗ[K] K) :
    ∃ u : A, ∀ b, l b = pb.coord ⟨D - 1, by omega⟩ (u * b) := by
  have hfin : Module.Finite K A := Module.Finite.of_basis pb
  let Λ : A →ₗ[K] (A →ₗ[K] K) := (LinearMap.mul K A).compr₂ (pb.coord ⟨D - 1, by omega⟩)
  have hinj : Function.Injective Λ := by
    rw [← LinearMap.ker_eq_bot, LinearMap.ker_eq_bot']
    intro a ha
    exact coord_nondeg pb hpb hD fun b => LinearMap.congr_fun ha b
  have hsurj := (LinearMap.injective_iff_surjective_of_finrank_eq_finrank (f := Λ) (Subspace.dual_finrank_eq).symm).mp hinj
  obtain ⟨u, hu⟩ := hsurj l
  exact ⟨u, fun b => by rw [← hu]; rfl⟩

variable [Fintype K] (B : Module.Basis (Fin D) K A)

open Classical in
/-- Elements at which a form that is not zero is zero. -/
theorem count_ker (φ : A →ₗ[K] K) (hφ : φ ≠ 0) :
    Fintype.card K * (Finset.univ.filter fun v : Fin D → K => φ (B.equivFun.symm v) = 0).card ≤ Fintype.card K ^ D := by
  obtain ⟨b, hb⟩ : ∃ b, φ b ≠ 0 := by
    by_contra h
    push Not at h
    exact hφ (LinearMap.ext h)
  have := count_lines (K := K) (fun v : Fin D → K => φ (B.equivFun.symm v) = 0) (B.equivFun b) 1 (by
    intro w
    rw [Finset.card_le_one]
    intro c hc c' hc'
    simp only [Finset.mem_filter, Finset.mem_univ, true_and, map_add, map_smul, LinearEquiv.symm_apply_apply, smul_eq_mul] at hc hc'
    exact mul_right_cancel₀ hb (by linear_combination hc - hc'))
  rw [one_mul, card_vectors] at this
  convert this

omit [Fintype K] in
theorem lseq_hmul {l : A →ₗ[K] K} {x : A} (c : ℕ → K) (t : ℕ) :
    hmul (lseq l x 1) D c t = l ((∑ i ∈ Finset.range D, c i • x ^ i) * x ^ t) := by
  rw [hmul, Finset.sum_mul, map_sum]
  refine Finset.sum_congr rfl fun i _ => ?_
  rw [smul_mul_assoc, map_smul, ← pow_add, lseq, mul_one, smul_eq_mul, mul_comm, add_comm t i]

open Classical in
/-- For all but a fraction of at most `(D + 1) / |K|` of the vectors the scalar sequence has the minimal polynomial of `x`, and the last entry of the first column of
the inverse of its Hankel matrix is not zero. -/
theorem shape_vectors [Nontrivial A] (x : A) (hdeg : (minpoly K x).natDegree = D) : ∃ S : Finset (Fin D → K),
    Fintype.card K * S.card ≤ (D + 1) * Fintype.card K ^ D ∧ ∀ v, v ∉ S →
      IsMinPoly (minpoly K x) (lseq (formOf B v) x 1) ∧
      ¬ ∃ c : ℕ → K, Regular (lseq (formOf B v) x 1) D ∧ (∀ t, t < D → hmul (lseq (formOf B v) x 1) D c t = if t = 0 then 1 else 0) ∧
        c (D - 1) = 0 := by
  have hfin : Module.Finite K A := Module.Finite.of_basis B
  have hrank : Module.finrank K A = D := by rw [Module.finrank_eq_card_basis B, Fintype.card_fin]
  have hD : 0 < D := hdeg ▸ minpoly.natDegree_pos (Algebra.IsIntegral.isIntegral x)
  obtain ⟨S1, hS1, hg1⟩ := bad_vectors B x (m := 0) Fin.elim0 Fin.elim0 Fin.elim0
  have hli : LinearIndependent K fun i : Fin D => x ^ i.val := by
    have := linearIndependent_pow (K := K) x
    rwa [hdeg] at this
  have hne : Nonempty (Fin D) := ⟨⟨0, hD⟩⟩
  let pb := basisOfLinearIndependentOfCardEqFinrank hli (by rw [Fintype.card_fin, hrank])
  have hpb : ∀ i, pb i = x ^ i.val := fun i => by
    rw [coe_basisOfLinearIndependentOfCardEqFinrank]
  let lam := pb.coord ⟨D - 1, by omega⟩
  obtain ⟨w, hw⟩ := coord_surj pb hpb hD (pb.coord ⟨0, hD⟩)
  have hlam0 : ∀ i : Fin D, pb.coord ⟨0, hD⟩ (x ^ i.val) = if i.val = 0 then 1 else 0 := by
    intro i
    rw [← hpb, Module.Basis.coord_apply, pb.repr_self]
    by_cases hi : i.val = 0
    · rw [if_pos hi, show i = ⟨0, hD⟩ from Fin.ext hi, Finsupp.single_eq_same]
    · rw [if_neg hi, Finsupp.single_eq_of_ne]
      rintro rfl
      exact hi rfl
  have hφ : lam ∘ₗ LinearMap.mulLeft K w ≠ 0 := by
    intro h0
    have h1 := hw 1
    have h2 := LinearMap.congr_fun h0 1
    have h3 := hlam0 ⟨0, hD⟩
    simp only [pow_zero, if_true] at h3
    rw [h3] at h1
    exact one_ne_zero (h1.trans h2)
  let S2 : Finset (Fin D → K) := (Finset.univ.filter fun v : Fin D → K => (lam ∘ₗ LinearMap.mulLeft K w) (B.equivFun.symm v) = 0).image
    fun v i => lam (Ring.inverse (B.equivFun.symm v) * B i)
  have hS2 : Fintype.card K * S2.card ≤ Fintype.card K ^ D :=
    (Nat.mul_le_mul_left _ Finset.card_image_le).trans (count_ker B _ hφ)
  refine ⟨S1 ∪ S2, ?_, fun v hv => ?_⟩
  · have h3 := Nat.mul_le_mul_left (Fintype.card K) (Finset.card_union_le S1 S2)
    rw [mul_add] at h3
    rw [add_mul]
    simp only [mul_zero, zero_add, one_mul] at hS1 ⊢
    exact h3.trans (add_le_add hS1 hS2)
  rw [Finset.mem_union, not_or] at hv
  refine ⟨(hg1 v hv.1).1, ?_⟩
  rintro ⟨c, hreg, hc, hc0⟩
  apply hv.2
  obtain ⟨u, hu⟩ := coord_surj pb hpb hD (formOf B v)
  -- expansion in powers
  have hexp : ∀ a : A, ∃ c : ℕ → K, a = ∑ i ∈ Finset.range D, c i • x ^ i := by
    intro a
    refine ⟨fun i => if h : i < D then pb.repr a ⟨i, h⟩ else 0, ?_⟩
    rw [Finset.sum_range]
    conv_lhs => rw [← pb.sum_repr a]
    refine Finset.sum_congr rfl fun i _ => ?_
    simp only [dif_pos i.isLt, hpb]
  have hnz : ∀ a, u * a = 0 → a = 0 := by
    intro a ha
    obtain ⟨k, rfl⟩ := hexp a
    have := hreg k (fun t ht => by
      rw [lseq_hmul, hu, ← mul_assoc, ha, zero_mul, map_zero])
    exact Finset.sum_eq_zero fun i hi => by rw [this i (Finset.mem_range.mp hi), zero_smul]
  obtain ⟨t, ht⟩ : ∃ t, u * t = 1 := by
    have hinj : Function.Injective (LinearMap.mulLeft K u) := by
      rw [← LinearMap.ker_eq_bot, LinearMap.ker_eq_bot']
      exact hnz
    exact LinearMap.injective_iff_surjective.mp hinj 1
  have hinv : Ring.inverse t = u := by
    have h1 : t * u = 1 := by rw [mul_comm]; exact ht
    have h2 : IsUnit t := IsUnit.of_mul_eq_one u h1
    calc Ring.inverse t = Ring.inverse t * (t * u) := by rw [h1, mul_one]
      _ = u := by rw [← mul_assoc, Ring.inverse_mul_cancel t h2, one_mul]
  let e : A := ∑ i ∈ Finset.range D, c i • x ^ i
  have hue : u * e = w := by
    rw [← sub_eq_zero]
    apply coord_nondeg pb hpb hD
    intro b
    obtain ⟨k, rfl⟩ := hexp b
    rw [sub_mul, map_sub, mul_assoc, ← hu, ← hw, Finset.mul_sum, map_sum, map_sum, sub_eq_zero]
    refine Finset.sum_congr rfl fun i hi => ?_
    rw [mul_smul_comm, map_smul, map_smul, ← lseq_hmul, hc i (Finset.mem_range.mp hi), hlam0 ⟨i, Finset.mem_range.mp hi⟩]
  have he : e = w * t := by
    rw [← hue, mul_right_comm, ht, one_mul]
  have hle : lam e = 0 := by
    simp only [e]
    rw [map_sum, Finset.sum_eq_single (D - 1)]
    · rw [hc0, zero_smul, map_zero]
    · intro i hi hne
      have := hpb ⟨i, Finset.mem_range.mp hi⟩
      simp only at this
      rw [map_smul, ← this]
      simp only [lam]
      rw [Module.Basis.coord_apply, pb.repr_self, Finsupp.single_eq_of_ne, smul_zero]
      intro h
      exact hne (congrArg Fin.val h).symm
    · intro h
      exact absurd (Finset.mem_range.mpr (by omega)) h
  refine Finset.mem_image.mpr ⟨B.equivFun t, ?_, ?_⟩
  · rw [Finset.mem_filter, LinearEquiv.symm_apply_apply]
    exact ⟨Finset.mem_univ _, by rw [he] at hle; exact hle⟩
  · funext i
    rw [LinearEquiv.symm_apply_apply, hinv, ← hu, formOf, Module.Basis.constr_basis]

end Verif.Fglm
