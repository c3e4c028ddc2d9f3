import Mathlib.RingTheory.MvPolynomial.Groebner
import Mathlib.RingTheory.MvPolynomial.MonomialOrder
import Mathlib.Order.WellFoundedSet
import Mathlib.Data.Finsupp.PWO
import Verif.GroebnerUnique
import Verif.Spec.Reduction

/-! Reduced Groebner bases over the rationals and modulo primes: for all but finitely many primes the reduction of the basis
over the rationals is the reduced Groebner basis of the reduced ideal. -/

namespace Verif.Lucky

open MvPolynomial Verif.Spec Verif.Groebner

variable {n : Nat}

/-! ### Existence -/

theorem exists_reduced {K : Type*} [Field K] (m : MonomialOrder (Fin n)) (I : Ideal (MvPolynomial (Fin n) K)) :
    ∃ G : Set (MvPolynomial (Fin n) K), G.Finite ∧ IsReducedGroebner m I G := by
  classical
  set S := initials m I with hS
  set M := { d | Minimal (· ∈ S) d } with hM
  have hfin : M.Finite := by
    have h1 : M.IsPWO := Set.isPWO_of_wellQuasiOrderedLE _
    exact (setOfPred_minimal_antichain _).finite_of_partiallyWellOrderedOn h1
  have hmin : ∀ d ∈ S, ∃ e ∈ M, e ≤ d := by
    intro d hd
    have hwf : WellFounded ((· < ·) : (Fin n →₀ ℕ) → (Fin n →₀ ℕ) → Prop) := wellFounded_lt
    obtain ⟨e, ⟨he1, he2⟩, h⟩ := hwf.has_min { e | e ∈ S ∧ e ≤ d } ⟨d, hd, le_rfl⟩
    refine ⟨e, ⟨he1, ?_⟩, he2⟩
    intro y hy hye
    by_contra hne
    exact h y ⟨hy, hye.trans he2⟩ (lt_of_le_not_ge hye hne)
  have hb : ∀ d : M, ∃ b ∈ I, m.leadingCoeff b = 1 ∧ m.degree b = d := by
    intro d
    obtain ⟨f, hf, h0, hd⟩ := d.2.1
    have hlc : m.leadingCoeff f ≠ 0 := m.leadingCoeff_ne_zero_iff.mpr h0
    refine ⟨C (m.leadingCoeff f)⁻¹ * f, Ideal.mul_mem_left _ _ hf, ?_, ?_⟩
    · rw [m.leadingCoeff_mul, m.leadingCoeff_C]
      exact inv_mul_cancel₀ hlc
    · rw [m.degree_mul (by simpa using hlc) h0, m.degree_C, zero_add, hd]
  choose b hbI hb1 hbd using hb
  have hdiv : ∀ d : M, ∃ r : MvPolynomial (Fin n) K, monomial d.1 1 - r ∈ I ∧ (∀ c ∈ r.support, m.toSyn c ≤ m.toSyn d.1) ∧
      ∀ c ∈ r.support, ∀ e : M, ¬ e.1 ≤ c := by
    intro d
    obtain ⟨g, r, h1, h2, h3⟩ := m.div (b := b) (fun i => by rw [hb1]; exact isUnit_one) (monomial d.1 (1 : K))
    have hmem : Finsupp.linearCombination _ b g ∈ I := by
      rw [Finsupp.linearCombination_apply]
      exact Ideal.sum_mem _ fun i _ => by simpa using Ideal.mul_mem_left _ _ (hbI i)
    refine ⟨r, ?_, ?_, fun c hc e => by rw [← hbd e]; exact h3 c hc e⟩
    · rw [h1, add_sub_cancel_right]; exact hmem
    · intro c hc
      have hr : r = monomial d.1 1 - Finsupp.linearCombination _ b g := by rw [h1]; ring
      have hdeg : m.degree (monomial d.1 (1 : K)) = d.1 := by rw [m.degree_monomial, if_neg one_ne_zero]
      by_contra hlt
      push Not at hlt
      have hz : r.coeff c = 0 := by
        rw [hr, coeff_sub, m.coeff_eq_zero_of_lt (by rw [hdeg]; exact hlt), zero_sub, neg_eq_zero,
          Finsupp.linearCombination_apply, Finsupp.sum, coeff_sum]
        apply Finset.sum_eq_zero
        intro i _
        apply m.coeff_eq_zero_of_lt
        refine lt_of_le_of_lt ?_ hlt
        have := h2 i
        rw [hdeg, mul_comm] at this
        simpa using this
      exact (mem_support_iff.mp hc) hz
  choose r hrI hrle hrn using hdiv
  have hself : ∀ d : M, d.1 ∉ (r d).support := fun d h => hrn d d.1 h d le_rfl
  have hco : ∀ d : M, (monomial d.1 1 - r d).coeff d.1 = 1 := by
    intro d
    rw [coeff_sub, coeff_monomial, if_pos rfl, notMem_support_iff.mp (hself d), sub_zero]
  have hsupp : ∀ d : M, ∀ c ∈ (monomial d.1 1 - r d).support, c = d.1 ∨ c ∈ (r d).support := by
    intro d c hc
    by_cases h : c = d.1
    · exact Or.inl h
    · right
      rw [mem_support_iff, coeff_sub, coeff_monomial, if_neg (Ne.symm h), zero_sub, neg_ne_zero] at hc
      exact mem_support_iff.mpr hc
  have hdeg : ∀ d : M, m.degree (monomial d.1 1 - r d) = d.1 := by
    intro d
    apply m.toSyn.injective
    apply le_antisymm
    · rw [m.degree_le_iff]
      intro c hc
      rcases hsupp d c hc with h | h
      · rw [h]
      · exact hrle d c h
    · exact m.le_degree (mem_support_iff.mpr (by rw [hco]; exact one_ne_zero))
  have hlc : ∀ d : M, m.leadingCoeff (monomial d.1 1 - r d) = 1 := by
    intro d
    unfold MonomialOrder.leadingCoeff
    rw [hdeg, hco]
  have : Finite M := hfin
  refine ⟨Set.range fun d : M => monomial d.1 1 - r d, Set.finite_range _, ⟨?_, ?_⟩, ?_, ?_⟩
  · rintro _ ⟨d, rfl⟩
    exact hrI d
  · intro f hf h0
    obtain ⟨e, he, hle⟩ := hmin _ ⟨f, hf, h0, rfl⟩
    exact ⟨_, ⟨⟨e, he⟩, rfl⟩, ne_zero_of_monic (m := m) (hlc _), by rw [hdeg]; exact hle⟩
  · rintro _ ⟨d, rfl⟩
    exact hlc d
  · rintro _ ⟨d, rfl⟩ _ ⟨e, rfl⟩ hne u hu
    rw [hdeg]
    rcases hsupp d u hu with h | h
    · subst h
      intro hle
      apply hne
      have : d = e := by
        apply Subtype.ext
        exact le_antisymm (d.2.2 e.2.1 hle) hle
      rw [this]
    · exact hrn d u h e

/-! ### Denominators -/

theorem clear_poly (a : MvPolynomial (Fin n) ℚ) : ∃ D : ℤ, D ≠ 0 ∧ ∃ A : MvPolynomial (Fin n) ℤ,
    MvPolynomial.map (Int.castRingHom ℚ) A = C (D : ℚ) * a := by
  induction a using MvPolynomial.induction_on with
  | C q =>
    refine ⟨q.den, by simp, C q.num, ?_⟩
    rw [map_C, ← C_mul]
    congr 1
    simp only [eq_intCast, Int.cast_natCast]
    exact (Rat.den_mul_eq_num q).symm
  | add a b ha hb =>
    obtain ⟨D, hD, A, hA⟩ := ha
    obtain ⟨E, hE, B, hB⟩ := hb
    refine ⟨D * E, mul_ne_zero hD hE, C E * A + C D * B, ?_⟩
    rw [map_add, map_mul, map_mul, hA, hB, map_C, map_C]
    simp only [eq_intCast, Int.cast_mul, C_mul]
    ring
  | mul_X a i ha =>
    obtain ⟨D, hD, A, hA⟩ := ha
    refine ⟨D, hD, A * X i, ?_⟩
    rw [map_mul, hA, map_X, mul_assoc]

theorem clear_ideal {ι : Type*} {f : ι → MvPolynomial (Fin n) ℤ} {x : MvPolynomial (Fin n) ℚ} (hx : x ∈ idealOver ℚ f) :
    ∃ D : ℤ, D ≠ 0 ∧ ∃ A ∈ Ideal.span (Set.range f), MvPolynomial.map (Int.castRingHom ℚ) A = C (D : ℚ) * x := by
  unfold idealOver at hx
  induction hx using Submodule.span_induction with
  | mem x h =>
    obtain ⟨i, rfl⟩ := h
    exact ⟨1, one_ne_zero, f i, Ideal.subset_span ⟨i, rfl⟩, by simp⟩
  | zero => exact ⟨1, one_ne_zero, 0, Ideal.zero_mem _, by simp⟩
  | add a b _ _ ha hb =>
    obtain ⟨D, hD, A, hAI, hA⟩ := ha
    obtain ⟨E, hE, B, hBI, hB⟩ := hb
    refine ⟨D * E, mul_ne_zero hD hE, C E * A + C D * B,
      Ideal.add_mem _ (Ideal.mul_mem_left _ _ hAI) (Ideal.mul_mem_left _ _ hBI), ?_⟩
    rw [map_add, map_mul, map_mul, hA, hB, map_C, map_C]
    simp only [eq_intCast, Int.cast_mul, C_mul]
    ring
  | smul a x _ hx =>
    obtain ⟨D, hD, A, hA⟩ := clear_poly a
    obtain ⟨E, hE, B, hBI, hB⟩ := hx
    refine ⟨D * E, mul_ne_zero hD hE, A * B, Ideal.mul_mem_left _ _ hBI, ?_⟩
    rw [map_mul, hA, hB, smul_eq_mul, Int.cast_mul, C_mul]
    ring

theorem idealOver_map (K : Type*) [Field K] {ι : Type*} (f : ι → MvPolynomial (Fin n) ℤ) :
    idealOver K f = Ideal.map (MvPolynomial.map (Int.castRingHom K)) (Ideal.span (Set.range f)) := by
  rw [Ideal.map_span, ← Set.range_comp]
  rfl

theorem coeff_reduceMod (p : ℕ) [Fact p.Prime] (g : MvPolynomial (Fin n) ℚ) (u : Fin n →₀ ℕ) :
    (reduceMod p g).coeff u = ((g.coeff u).num : ZMod p) / ((g.coeff u).den : ZMod p) := by
  classical
  unfold reduceMod
  rw [coeff_sum]
  simp only [coeff_monomial]
  rw [Finset.sum_ite_eq']
  split_ifs with h
  · rfl
  · rw [notMem_support_iff.mp h]
    simp

/-- An integer multiple of a rational polynomial, by a number prime to `p`. -/
theorem reduce_multiple {p : ℕ} [hp : Fact p.Prime] {D : ℤ} (hD : ¬ (p : ℤ) ∣ D) {A : MvPolynomial (Fin n) ℤ}
    {g : MvPolynomial (Fin n) ℚ} (h : MvPolynomial.map (Int.castRingHom ℚ) A = C (D : ℚ) * g) :
    IntegralAt p g ∧ MvPolynomial.map (Int.castRingHom (ZMod p)) A = C (D : ZMod p) * reduceMod p g := by
  have key : ∀ u, A.coeff u * (g.coeff u).den = D * (g.coeff u).num := by
    intro u
    have h1 := congrArg (coeff u) h
    rw [coeff_map, coeff_C_mul, eq_intCast] at h1
    have h2 := Rat.num_div_den (g.coeff u)
    have h3 : ((g.coeff u).den : ℚ) ≠ 0 := by exact_mod_cast (g.coeff u).den_nz
    rw [← h2, mul_div_assoc', eq_div_iff h3] at h1
    exact_mod_cast h1
  have hint : IntegralAt p g := by
    intro u hu
    have h1 : (((g.coeff u).den : ℕ) : ℤ) ∣ D * (g.coeff u).num := ⟨A.coeff u, by rw [← key u]; ring⟩
    have h2 : IsCoprime (((g.coeff u).den : ℕ) : ℤ) (g.coeff u).num := by
      rw [Int.isCoprime_iff_gcd_eq_one, Int.gcd_comm]
      exact (g.coeff u).reduced
    have h3 := h2.dvd_of_dvd_mul_right h1
    exact hD ((Int.natCast_dvd_natCast.mpr hu).trans h3)
  refine ⟨hint, ?_⟩
  ext u
  rw [coeff_map, coeff_C_mul, coeff_reduceMod, eq_intCast]
  have h1 := congrArg (Int.cast : ℤ → ZMod p) (key u)
  push_cast at h1
  have h2 : ((g.coeff u).den : ZMod p) ≠ 0 := by
    rw [Ne, ZMod.natCast_eq_zero_iff]
    exact hint u
  rw [mul_div_assoc', eq_div_iff h2]
  exact h1

/-! ### Degrees -/

theorem degree_map_int (m : MonomialOrder (Fin n)) (F : MvPolynomial (Fin n) ℤ) :
    m.degree (MvPolynomial.map (Int.castRingHom ℚ) F) = m.degree F := by
  unfold MonomialOrder.degree
  rw [support_map_of_injective _ Int.cast_injective]

theorem degree_of_coeff {K : Type*} [CommSemiring K] {m : MonomialOrder (Fin n)} {F : MvPolynomial (Fin n) K} {d : Fin n →₀ ℕ}
    (h1 : F.coeff d ≠ 0) (h2 : ∀ u ∈ F.support, m.toSyn u ≤ m.toSyn d) : m.degree F = d := by
  apply m.toSyn.injective
  apply le_antisymm
  · rw [m.degree_le_iff]
    exact h2
  · exact m.le_degree (mem_support_iff.mpr h1)

/-- The reduction of a monic polynomial. -/
theorem reduce_monic {m : MonomialOrder (Fin n)} (p : ℕ) [hp : Fact p.Prime] {g : MvPolynomial (Fin n) ℚ}
    (hg : m.leadingCoeff g = 1) :
    m.degree (reduceMod p g) = m.degree g ∧ m.leadingCoeff (reduceMod p g) = 1 ∧ (reduceMod p g).support ⊆ g.support := by
  have hsub : (reduceMod p g).support ⊆ g.support := by
    intro u hu
    rw [mem_support_iff, coeff_reduceMod] at hu
    rw [mem_support_iff]
    intro h0
    rw [h0] at hu
    simp at hu
  have hc : (reduceMod p g).coeff (m.degree g) = 1 := by
    rw [coeff_reduceMod]
    have : g.coeff (m.degree g) = 1 := hg
    rw [this]
    simp
  have hd : m.degree (reduceMod p g) = m.degree g :=
    degree_of_coeff (by rw [hc]; exact one_ne_zero) fun u hu => m.le_degree (hsub hu)
  refine ⟨hd, ?_, hsub⟩
  unfold MonomialOrder.leadingCoeff
  rw [hd, hc]

/-- An element of the ideal with integer coefficients that is not zero modulo `p`: its reduction has a leading monomial divisible
by that of an element of the basis. -/
theorem lead_divisible {m : MonomialOrder (Fin n)} {ι : Type*} {f : ι → MvPolynomial (Fin n) ℤ}
    {G : Set (MvPolynomial (Fin n) ℚ)} (hG : IsReducedGroebner m (idealOver ℚ f) G) {p : ℕ} [hp : Fact p.Prime]
    (hA : ∀ g ∈ G, ∃ D : ℤ, ¬ (p : ℤ) ∣ D ∧ ∃ A ∈ Ideal.span (Set.range f),
      MvPolynomial.map (Int.castRingHom ℚ) A = C (D : ℚ) * g) :
    ∀ F ∈ Ideal.span (Set.range f), MvPolynomial.map (Int.castRingHom (ZMod p)) F ≠ 0 →
      ∃ g ∈ G, m.degree g ≤ m.degree (MvPolynomial.map (Int.castRingHom (ZMod p)) F) := by
  have : WellFoundedLT m.syn := m.wellFoundedLT_syn
  intro F
  induction hd : m.toSyn (m.degree F) using WellFoundedLT.induction generalizing F with
  | _ d ih =>
    intro hF h0
    have hF0 : F ≠ 0 := by rintro rfl; simp at h0
    have hmQ : MvPolynomial.map (Int.castRingHom ℚ) F ∈ idealOver ℚ f := by
      rw [idealOver_map]; exact Ideal.mem_map_of_mem _ hF
    have hmQ0 : MvPolynomial.map (Int.castRingHom ℚ) F ≠ 0 := by
      intro h
      exact hF0 (MvPolynomial.map_injective _ Int.cast_injective (by rw [h, map_zero]))
    obtain ⟨g, hg, hg0, hle⟩ := hG.1.2 _ hmQ hmQ0
    rw [degree_map_int] at hle
    by_cases hlc : ((F.coeff (m.degree F) : ℤ) : ZMod p) = 0
    · obtain ⟨D, hD, A, hAI, hAm⟩ := hA g hg
      have hdA : m.degree A = m.degree g := by
        rw [← degree_map_int, hAm]
        have hD0 : (D : ℚ) ≠ 0 := by
          intro h
          apply hD
          rw [show D = 0 by exact_mod_cast h]
          exact dvd_zero _
        rw [m.degree_mul (by simpa using hD0) hg0, m.degree_C, zero_add]
      have hcA : A.coeff (m.degree g) = D := by
        have h1 := congrArg (coeff (m.degree g)) hAm
        rw [coeff_map, coeff_C_mul, eq_intCast, show g.coeff (m.degree g) = 1 from hG.2.1 g hg, mul_one] at h1
        exact_mod_cast h1
      set a := m.degree F - m.degree g with ha
      have hadd : a + m.degree g = m.degree F := tsub_add_cancel_of_le hle
      set F' := C D * F - monomial a (F.coeff (m.degree F)) * A with hF'
      have hmem : F' ∈ Ideal.span (Set.range f) :=
        Ideal.sub_mem _ (Ideal.mul_mem_left _ _ hF) (Ideal.mul_mem_left _ _ hAI)
      have hmap : MvPolynomial.map (Int.castRingHom (ZMod p)) F' =
          C (D : ZMod p) * MvPolynomial.map (Int.castRingHom (ZMod p)) F := by
        rw [hF', map_sub, map_mul, map_mul, map_C, map_monomial]
        simp only [eq_intCast]
        rw [hlc, monomial_zero, zero_mul, sub_zero]
      have hD' : (D : ZMod p) ≠ 0 := by
        rw [Ne, ZMod.intCast_zmod_eq_zero_iff_dvd]
        exact hD
      have hne : MvPolynomial.map (Int.castRingHom (ZMod p)) F' ≠ 0 := by
        rw [hmap]
        exact mul_ne_zero (by rw [Ne, C_eq_zero]; exact hD') h0
      have hF'0 : F' ≠ 0 := by rintro h; rw [h] at hne; simp at hne
      have hcz : F'.coeff (m.degree F) = 0 := by
        have h1 : (monomial a (F.coeff (m.degree F)) * A).coeff (m.degree F) = F.coeff (m.degree F) * D := by
          generalize F.coeff (m.degree F) = c
          rw [← hadd, coeff_monomial_mul, hcA]
        rw [hF', coeff_sub, coeff_C_mul, h1]
        ring
      have hlt : m.toSyn (m.degree F') < d := by
        rw [← hd]
        apply lt_of_le_of_ne
        · rw [m.degree_le_iff]
          intro u hu
          by_contra hlt
          push Not at hlt
          apply mem_support_iff.mp hu
          rw [hF', coeff_sub, coeff_C_mul, m.coeff_eq_zero_of_lt hlt, mul_zero, zero_sub, neg_eq_zero]
          apply m.coeff_eq_zero_of_lt
          refine lt_of_le_of_lt ?_ hlt
          refine le_trans m.degree_mul_le ?_
          rw [hdA, ← hadd, map_add, map_add]
          gcongr
          exact m.degree_monomial_le _
        · intro h
          have h2 := m.toSyn.injective h
          have h3 := m.leadingCoeff_ne_zero_iff.mpr hF'0
          unfold MonomialOrder.leadingCoeff at h3
          rw [h2] at h3
          exact h3 hcz
      obtain ⟨g', hg', h'⟩ := ih _ hlt F' rfl hmem hne
      refine ⟨g', hg', ?_⟩
      rw [hmap, m.degree_mul (by rw [Ne, C_eq_zero]; exact hD') h0, m.degree_C, zero_add] at h'
      exact h'
    · refine ⟨g, hg, ?_⟩
      rw [degree_of_coeff (F := MvPolynomial.map (Int.castRingHom (ZMod p)) F) (d := m.degree F) (by rw [coeff_map]; exact hlc)]
      · exact hle
      · intro u hu
        apply m.le_degree
        rw [mem_support_iff, coeff_map] at hu
        rw [mem_support_iff]
        intro h
        rw [h] at hu
        simp at hu

/-- For all but finitely many primes, the reduction of the reduced Groebner basis over the rationals is the reduced Groebner basis
modulo the prime. -/
theorem lucky_cofinite {m : MonomialOrder (Fin n)} {ι : Type*} {f : ι → MvPolynomial (Fin n) ℤ}
    {G : Set (MvPolynomial (Fin n) ℚ)} (hfin : G.Finite) (hG : IsReducedGroebner m (idealOver ℚ f) G) :
    ∃ N : ℤ, N ≠ 0 ∧ ∀ (p : ℕ) [Fact p.Prime], ¬ (p : ℤ) ∣ N →
      (∀ g ∈ G, IntegralAt p g) ∧ IsReducedGroebner m (idealOver (ZMod p) f) (reduceMod p '' G) := by
  have h1 : ∀ g : G, ∃ D : ℤ, D ≠ 0 ∧ ∃ A ∈ Ideal.span (Set.range f),
      MvPolynomial.map (Int.castRingHom ℚ) A = C (D : ℚ) * g.1 := fun g => clear_ideal (hG.1.1 g.1 g.2)
  choose D hD A hAI hA using h1
  have : Fintype G := hfin.fintype
  refine ⟨∏ g, D g, Finset.prod_ne_zero_iff.mpr fun g _ => hD g, ?_⟩
  intro p hp hN
  have hpD : ∀ g, ¬ (p : ℤ) ∣ D g := fun g h => hN (h.trans (Finset.dvd_prod_of_mem _ (Finset.mem_univ g)))
  have hred := fun g : G => reduce_multiple (hpD g) (hA g)
  refine ⟨fun g hg => (hred ⟨g, hg⟩).1, ⟨?_, ?_⟩, ?_, ?_⟩
  · rintro _ ⟨g, hg, rfl⟩
    have h2 := (hred ⟨g, hg⟩).2
    have h3 : MvPolynomial.map (Int.castRingHom (ZMod p)) (A ⟨g, hg⟩) ∈ idealOver (ZMod p) f := by
      rw [idealOver_map]; exact Ideal.mem_map_of_mem _ (hAI _)
    have h4 : (D ⟨g, hg⟩ : ZMod p) ≠ 0 := by
      rw [Ne, ZMod.intCast_zmod_eq_zero_iff_dvd]
      exact hpD _
    have h5 := Ideal.mul_mem_left _ (C (D ⟨g, hg⟩ : ZMod p)⁻¹) h3
    rw [h2, ← mul_assoc, ← C_mul, inv_mul_cancel₀ h4, C_1, one_mul] at h5
    exact h5
  · intro φ hφ h0
    rw [idealOver_map] at hφ
    obtain ⟨F, hF, rfl⟩ := (Ideal.mem_map_iff_of_surjective _
      (MvPolynomial.map_surjective _ (ZMod.ringHom_surjective (Int.castRingHom (ZMod p))))).mp hφ
    obtain ⟨g, hg, hle⟩ := lead_divisible hG (fun g hg => ⟨D ⟨g, hg⟩, hpD _, A ⟨g, hg⟩, hAI _, hA _⟩) F hF h0
    obtain ⟨e1, e2, -⟩ := reduce_monic p (hG.2.1 g hg)
    exact ⟨_, ⟨g, hg, rfl⟩, ne_zero_of_monic (m := m) e2, by rw [e1]; exact hle⟩
  · rintro _ ⟨g, hg, rfl⟩
    exact (reduce_monic p (hG.2.1 g hg)).2.1
  · rintro _ ⟨g, hg, rfl⟩ _ ⟨g', hg', rfl⟩ hne u hu
    rw [(reduce_monic p (hG.2.1 g' hg')).1]
    exact hG.2.2 g hg g' hg' (fun h => hne (by rw [h])) u ((reduce_monic p (hG.2.1 g hg)).2.2 hu)

end Verif.Lucky
