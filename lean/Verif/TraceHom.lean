import Mathlib.LinearAlgebra.Dimension.Constructions
import Mathlib.LinearAlgebra.Dimension.Free
import Mathlib.LinearAlgebra.FiniteDimensional.Lemmas
import Mathlib.LinearAlgebra.LinearIndependent.Lemmas
import Mathlib.RingTheory.MvPolynomial.Homogeneous
import Mathlib.RingTheory.Localization.Integer
import Mathlib.RingTheory.Localization.FractionRing
import Mathlib.Algebra.GCDMonoid.Finset
import Mathlib.Algebra.GCDMonoid.Nat
import Mathlib.Algebra.Field.ZMod
import Mathlib.Data.Finsupp.Interval
import Verif.Spec.Initial

/-! Homogeneous ideals modulo primes: the initial monomials of the reduction cannot be more than those over the
rationals (in each degree). -/

namespace Verif.Hom

open MvPolynomial Verif.Spec

variable {n : Nat}

/-- Integer vectors which are independent modulo a prime are independent over the rationals. -/
theorem li_lift {p : Nat} [Fact p.Prime] {J : Type*} [Fintype J] (v : J → MvPolynomial (Fin n) ℤ)
    (h : LinearIndependent (ZMod p) fun j => MvPolynomial.map (Int.castRingHom (ZMod p)) (v j)) :
    LinearIndependent ℚ fun j => MvPolynomial.map (Int.castRingHom ℚ) (v j) := by
  rw [Fintype.linearIndependent_iff] at h ⊢
  intro c hc
  by_contra hne
  push Not at hne
  obtain ⟨j0, hj0⟩ := hne
  obtain ⟨b, hb⟩ := IsLocalization.exist_integer_multiples_of_finite (nonZeroDivisors ℤ) c
  choose z hz using hb
  have hb0 : ((b : ℤ) : ℚ) ≠ 0 := by
    have := nonZeroDivisors.coe_ne_zero b
    exact_mod_cast this
  have hz' : ∀ j, ((z j : ℤ) : ℚ) = (b : ℤ) * c j := by
    intro j
    have := hz j
    simpa [Algebra.smul_def] using this
  have h1 : ∑ j, MvPolynomial.C (z j) * v j = 0 := by
    apply MvPolynomial.map_injective (Int.castRingHom ℚ) Int.cast_injective
    rw [map_sum, map_zero]
    have : ∀ j, MvPolynomial.map (Int.castRingHom ℚ) (MvPolynomial.C (z j) * v j) =
        ((b : ℤ) : ℚ) • (c j • MvPolynomial.map (Int.castRingHom ℚ) (v j)) := by
      intro j
      rw [map_mul, map_C, smul_smul, ← hz' j, ← C_mul']
      rfl
    simp only [this]
    rw [← Finset.smul_sum, hc, smul_zero]
  have hzne : z j0 ≠ 0 := by
    intro h0
    have := hz' j0
    rw [h0] at this
    simp only [Int.cast_zero] at this
    exact (mul_ne_zero hb0 hj0) this.symm
  obtain ⟨w, hw, hg⟩ := Finset.extract_gcd z (s := Finset.univ) ⟨j0, Finset.mem_univ _⟩
  set g := Finset.univ.gcd z
  have hg0 : g ≠ 0 := fun h0 => hzne (Finset.gcd_eq_zero_iff.mp h0 j0 (Finset.mem_univ _))
  have h2 : ∑ j, MvPolynomial.C (w j) * v j = 0 := by
    have h3 : MvPolynomial.C g * ∑ j, MvPolynomial.C (w j) * v j = 0 := by
      rw [Finset.mul_sum, ← h1]
      refine Finset.sum_congr rfl fun j _ => ?_
      rw [← mul_assoc, ← C_mul, ← hw j (Finset.mem_univ _)]
    rcases mul_eq_zero.mp h3 with h4 | h4
    · exact absurd (C_eq_zero.mp h4) hg0
    · exact h4
  have h3 := congrArg (MvPolynomial.map (Int.castRingHom (ZMod p))) h2
  rw [map_sum, map_zero] at h3
  have h4 := h (fun j => ((w j : ℤ) : ZMod p)) (by
    rw [← h3]
    refine Finset.sum_congr rfl fun j _ => ?_
    rw [map_mul, map_C, ← C_mul']
    rfl)
  have h5 : (p : ℤ) ∣ Finset.univ.gcd w := Finset.dvd_gcd fun j _ =>
    (ZMod.intCast_zmod_eq_zero_iff_dvd _ _).mp (h4 j)
  rw [hg] at h5
  have hp := (Fact.out : p.Prime).one_lt
  have := Int.le_of_dvd one_pos h5
  omega

theorem finrank_le {p : Nat} [Fact p.Prime] {J : Type*} [Finite J] (v : J → MvPolynomial (Fin n) ℤ) :
    Module.finrank (ZMod p) (Submodule.span (ZMod p) (Set.range fun j => MvPolynomial.map (Int.castRingHom (ZMod p)) (v j))) ≤
    Module.finrank ℚ (Submodule.span ℚ (Set.range fun j => MvPolynomial.map (Int.castRingHom ℚ) (v j))) := by
  obtain ⟨κ, a, ha, hs, hli⟩ := exists_linearIndependent' (ZMod p)
    (fun j => MvPolynomial.map (Int.castRingHom (ZMod p)) (v j))
  have : Finite κ := Finite.of_injective a ha
  have : Fintype κ := Fintype.ofFinite κ
  have h1 := li_lift (p := p) (fun k => v (a k)) hli
  rw [← hs, finrank_span_eq_card hli, ← finrank_span_eq_card h1]
  have : FiniteDimensional ℚ (Submodule.span ℚ (Set.range fun j => MvPolynomial.map (Int.castRingHom ℚ) (v j))) :=
    FiniteDimensional.span_of_finite ℚ (Set.finite_range _)
  apply Submodule.finrank_mono
  apply Submodule.span_mono
  rintro _ ⟨k, rfl⟩
  exact ⟨a k, rfl⟩

section
variable {K : Type*} [Field K] {ι : Type*} (f : ι → MvPolynomial (Fin n) ℤ) (e : ι → Nat)

/-- The multiples of degree `d` of the generators. -/
abbrev Idx (e : ι → Nat) (n d : Nat) : Type _ := { x : ι × (Fin n →₀ ℕ) // x.2.degree + e x.1 = d }

/-- The polynomial of such a multiple. -/
noncomputable def mult {d : Nat} (j : Idx e n d) : MvPolynomial (Fin n) ℤ := monomial j.1.2 1 * f j.1.1

instance idx_finite [Finite ι] (d : Nat) : Finite (Idx e n d) := by
  have h1 : Set.Finite { x : ι × (Fin n →₀ ℕ) | x.2.degree + e x.1 = d } := by
    have h2 : Set.Finite (Set.Iic (Finsupp.equivFunOnFinite.symm fun _ : Fin n => d)) := Set.finite_Iic _
    refine (Set.Finite.prod (Set.finite_univ (α := ι)) h2).subset ?_
    rintro ⟨i, a⟩ hx
    refine ⟨Set.mem_univ _, ?_⟩
    intro x
    have h3 := Finsupp.le_degree x a
    have h4 : a.degree + e i = d := hx
    simp only [Finsupp.equivFunOnFinite_symm_apply_apply]
    omega
  exact h1

/-- The part of degree `d` of the ideal. -/
noncomputable def part (K : Type*) [Field K] (d : Nat) : Submodule K (MvPolynomial (Fin n) K) :=
  Submodule.span K (Set.range fun j : Idx e n d => MvPolynomial.map (Int.castRingHom K) (mult f e j))

theorem part_le (d : Nat) {g : MvPolynomial (Fin n) K} (hg : g ∈ part f e K d) : g ∈ idealOver K f := by
  have : part f e K d ≤ (idealOver K f).restrictScalars K := by
    unfold part
    rw [Submodule.span_le]
    rintro _ ⟨j, rfl⟩
    simp only [mult, map_mul]
    exact Ideal.mul_mem_left _ _ (Ideal.subset_span ⟨_, rfl⟩)
  exact this hg

variable {f e} (he : ∀ i, (f i).IsHomogeneous (e i))
include he

theorem mult_homogeneous {d : Nat} (j : Idx e n d) :
    (MvPolynomial.map (Int.castRingHom K) (mult f e j)).IsHomogeneous d := by
  apply MvPolynomial.IsHomogeneous.map
  have h1 : (monomial j.1.2 (1 : ℤ)).IsHomogeneous j.1.2.degree := isHomogeneous_monomial _ rfl
  have h2 := h1.mul (he j.1.1)
  rw [j.2] at h2
  exact h2

theorem part_homogeneous {d : Nat} {g : MvPolynomial (Fin n) K} (hg : g ∈ part f e K d) : g.IsHomogeneous d := by
  have : part f e K d ≤ homogeneousSubmodule (Fin n) K d := by
    unfold part
    rw [Submodule.span_le]
    rintro _ ⟨j, rfl⟩
    exact mult_homogeneous he j
  exact this hg

theorem component_mul (d : Nat) {g : MvPolynomial (Fin n) K} (hg : g ∈ idealOver K f) :
    ∀ (u : Fin n →₀ ℕ) (c : K), homogeneousComponent d (monomial u c * g) ∈ part f e K d := by
  unfold idealOver at hg
  induction hg using Submodule.span_induction with
  | zero => intro u c; rw [mul_zero, map_zero]; exact Submodule.zero_mem _
  | add a b _ _ ha hb => intro u c; rw [mul_add, map_add]; exact Submodule.add_mem _ (ha u c) (hb u c)
  | mem x hx =>
    intro u c
    obtain ⟨i, rfl⟩ := hx
    have h0 : (monomial u c : MvPolynomial (Fin n) K).IsHomogeneous u.degree := isHomogeneous_monomial _ rfl
    have h1 := h0.mul ((he i).map (Int.castRingHom K))
    rw [homogeneousComponent_of_mem h1]
    split_ifs with hd
    · have : (monomial u c : MvPolynomial (Fin n) K) * MvPolynomial.map (Int.castRingHom K) (f i) =
          c • MvPolynomial.map (Int.castRingHom K) (mult f e (⟨(i, u), hd.symm⟩ : Idx e n d)) := by
        simp only [mult, map_mul, map_monomial, map_one]
        rw [← smul_mul_assoc, smul_monomial, smul_eq_mul, mul_one]
      rw [this]
      exact Submodule.smul_mem _ _ (Submodule.subset_span ⟨_, rfl⟩)
    · exact Submodule.zero_mem _
  | smul b x hx ih =>
    induction b using MvPolynomial.induction_on' with
    | add a b ha hb =>
      intro u c
      rw [add_smul, mul_add, map_add]
      exact Submodule.add_mem _ (ha u c) (hb u c)
    | monomial w a =>
      intro u c
      rw [smul_eq_mul, ← mul_assoc, monomial_mul]
      exact ih _ _

theorem component_mem (d : Nat) {g : MvPolynomial (Fin n) K} (hg : g ∈ idealOver K f) :
    homogeneousComponent d g ∈ part f e K d := by
  have := component_mul he d hg 0 1
  rwa [show (monomial 0 (1 : K) : MvPolynomial (Fin n) K) = 1 from rfl, one_mul] at this

/-- Every initial monomial is the leading monomial of a form in the part of its degree. -/
theorem initials_part {m : MonomialOrder (Fin n)} {u : Fin n →₀ ℕ} (hu : u ∈ initials m (idealOver K f)) :
    ∃ g ∈ part f e K u.degree, g ≠ 0 ∧ m.degree g = u := by
  obtain ⟨g, hg, h0, rfl⟩ := hu
  refine ⟨_, component_mem he (m.degree g).degree hg, ?_⟩
  have hc : (homogeneousComponent (m.degree g).degree g).coeff (m.degree g) ≠ 0 := by
    rw [coeff_homogeneousComponent, if_pos rfl]
    exact m.coeff_degree_ne_zero_iff.mpr h0
  have hne : homogeneousComponent (m.degree g).degree g ≠ 0 := fun h => hc (by rw [h, coeff_zero])
  refine ⟨hne, ?_⟩
  have hle : m.toSyn (m.degree (homogeneousComponent (m.degree g).degree g)) ≤ m.toSyn (m.degree g) := by
    apply m.degree_le_iff.mpr
    intro b hb
    apply m.le_degree
    rw [mem_support_iff, coeff_homogeneousComponent] at hb
    rw [mem_support_iff]
    intro h
    apply hb
    rw [h, ite_self]
  have hge : m.toSyn (m.degree g) ≤ m.toSyn (m.degree (homogeneousComponent (m.degree g).degree g)) :=
    m.le_degree (mem_support_iff.mpr hc)
  exact m.toSyn.injective (le_antisymm hle hge)

end

/-- Polynomials with distinct leading monomials are independent. -/
theorem li_of_degrees {K : Type*} [Field K] {m : MonomialOrder (Fin n)} {J : Type*} [Fintype J]
    (g : J → MvPolynomial (Fin n) K) (h0 : ∀ j, g j ≠ 0) (hinj : Function.Injective fun j => m.degree (g j)) :
    LinearIndependent K g := by
  classical
  rw [Fintype.linearIndependent_iff]
  intro c hc
  by_contra hne
  push Not at hne
  obtain ⟨i0, hi0⟩ := hne
  obtain ⟨j, hj, hmax⟩ := (Finset.univ.filter fun j => c j ≠ 0).exists_max_image
    (fun j => m.toSyn (m.degree (g j))) ⟨i0, by simp [hi0]⟩
  have h1 := congrArg (coeff (m.degree (g j))) hc
  rw [coeff_sum, coeff_zero, Finset.sum_eq_single j] at h1
  · rw [coeff_smul, smul_eq_mul] at h1
    rcases mul_eq_zero.mp h1 with h2 | h2
    · exact (Finset.mem_filter.mp hj).2 h2
    · exact m.coeff_degree_ne_zero_iff.mpr (h0 j) h2
  · intro b _ hb
    rw [coeff_smul, smul_eq_mul]
    by_cases hcb : c b = 0
    · rw [hcb, zero_mul]
    · have h2 := hmax b (by simp [hcb])
      have h3 : m.degree (g b) ≠ m.degree (g j) := fun h => hb (hinj h)
      rw [m.coeff_eq_zero_of_lt (lt_of_le_of_ne h2 fun h => h3 (m.toSyn.injective h)), mul_zero]
  · intro h; exact absurd (Finset.mem_univ _) h

/-- The dimension of a space of polynomials is at most the number of its leading monomials. -/
theorem finrank_le_degrees {K : Type*} [Field K] {m : MonomialOrder (Fin n)}
    (V : Submodule K (MvPolynomial (Fin n) K)) (S : Finset (Fin n →₀ ℕ))
    (hS : ∀ g ∈ V, g ≠ 0 → m.degree g ∈ S) : Module.finrank K V ≤ S.card := by
  classical
  let T : V →ₗ[K] (S → K) :=
    { toFun := fun g s => coeff s.1 g.1
      map_add' := fun a b => by ext s; simp
      map_smul' := fun c a => by ext s; simp }
  have hT : Function.Injective T := by
    rw [← LinearMap.ker_eq_bot, LinearMap.ker_eq_bot']
    intro g hg
    by_contra hne
    have h1 : g.1 ≠ 0 := fun h => hne (Subtype.ext h)
    have h2 := congrFun hg ⟨_, hS g.1 g.2 h1⟩
    exact m.coeff_degree_ne_zero_iff.mpr h1 h2
  have := LinearMap.finrank_le_finrank_of_injective hT
  rwa [Module.finrank_fintype_fun_eq_card, Fintype.card_coe] at this

/-- For homogeneous input: if all initial monomials over the rationals are initial modulo a prime, there are no
others modulo this prime. -/
theorem initials_eq {ι : Type*} [Finite ι] {f : ι → MvPolynomial (Fin n) ℤ} {e : ι → Nat}
    (he : ∀ i, (f i).IsHomogeneous (e i)) (m : MonomialOrder (Fin n)) (p : Nat) [Fact p.Prime]
    (h : initials m (idealOver ℚ f) ⊆ initials m (idealOver (ZMod p) f)) :
    initials m (idealOver (ZMod p) f) = initials m (idealOver ℚ f) := by
  classical
  refine (Set.Subset.antisymm h ?_).symm
  intro u hu
  by_contra hnu
  set d := u.degree
  -- initial monomials of degree `d` over the rationals
  have hfin : Set.Finite { w : Fin n →₀ ℕ | w ∈ initials m (idealOver ℚ f) ∧ w.degree = d } := by
    refine (Set.finite_Iic (Finsupp.equivFunOnFinite.symm fun _ : Fin n => d)).subset ?_
    rintro w ⟨-, hw⟩ x
    have h3 := Finsupp.le_degree x w
    simp only [Finsupp.equivFunOnFinite_symm_apply_apply]
    omega
  set S := hfin.toFinset with hSdef
  have hS : ∀ w, w ∈ S ↔ w ∈ initials m (idealOver ℚ f) ∧ w.degree = d := fun w => by simp [hSdef]
  have h1 : Module.finrank ℚ (part f e ℚ d) ≤ S.card := by
    apply finrank_le_degrees (m := m)
    intro g hg h0
    rw [hS]
    refine ⟨⟨g, part_le f e d hg, h0, rfl⟩, ?_⟩
    have h2 := part_homogeneous he hg (m.coeff_degree_ne_zero_iff.mpr h0)
    rw [← h2, Finsupp.degree_eq_weight_one (R := ℕ)]
    rfl
  have hu' : u ∉ S := fun hh => hnu ((hS u).mp hh).1
  have hex : ∀ w : (insert u S : Finset _), ∃ g ∈ part f e (ZMod p) d, g ≠ 0 ∧ m.degree g = w.1 := by
    rintro ⟨w, hw⟩
    rcases Finset.mem_insert.mp hw with rfl | hw
    · exact initials_part he hu
    · obtain ⟨h2, h3⟩ := (hS w).mp hw
      rw [← h3]
      exact initials_part he (h h2)
  choose g hg h0 hdeg using hex
  have hli : LinearIndependent (ZMod p) g := by
    apply li_of_degrees (m := m) g h0
    intro a b hab
    simp only [hdeg] at hab
    exact Subtype.ext hab
  have hfd : FiniteDimensional (ZMod p) (part f e (ZMod p) d) :=
    FiniteDimensional.span_of_finite _ (Set.finite_range _)
  have h2 : (insert u S : Finset _).card ≤ Module.finrank (ZMod p) (part f e (ZMod p) d) := by
    have h3 : LinearIndependent (ZMod p) fun w : (insert u S : Finset _) => (⟨g w, hg w⟩ : part f e (ZMod p) d) :=
      LinearIndependent.of_comp (part f e (ZMod p) d).subtype hli
    have := h3.fintype_card_le_finrank
    rwa [Fintype.card_coe] at this
  rw [Finset.card_insert_of_notMem hu'] at h2
  have h3 : Module.finrank (ZMod p) (part f e (ZMod p) d) ≤ Module.finrank ℚ (part f e ℚ d) :=
    finrank_le (p := p) (mult f e (d := d))
  omega

end Verif.Hom
