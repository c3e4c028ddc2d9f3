import Mathlib.RingTheory.Nakayama
import Mathlib.RingTheory.MvPolynomial.Groebner
import Mathlib.RingTheory.AdjoinRoot
import Mathlib.RingTheory.Polynomial.Basic
import Mathlib.RingTheory.Polynomial.GaussLemma
import Mathlib.FieldTheory.Perfect
import Mathlib.FieldTheory.Separable
import Mathlib.LinearAlgebra.FiniteDimensional.Basic
import Verif.Lucky
import Verif.Spec.Shape

/-!
Parametrizations over the rationals and modulo primes: an ideal whose reduction modulo a lucky prime has a parametrization has
one over the rationals, and the reduction of the latter is the former.
-/

namespace Verif.ShapeQ

open MvPolynomial Verif.Spec Verif.Groebner Verif.Lucky

variable {n : ℕ}

/-! ### The local ring -/

/-- The rational numbers whose denominator is not divisible by `p`. -/
def Zp (p : ℕ) [Fact p.Prime] : Subring ℚ where
  carrier := { q | (q.den : ZMod p) ≠ 0 }
  mul_mem' := by
    intro a b ha hb h
    obtain ⟨c, hc⟩ := Rat.mul_den_dvd a b
    have h1 : ((a.den * b.den : ℕ) : ZMod p) = 0 := by rw [hc, Nat.cast_mul, h, zero_mul]
    rw [Nat.cast_mul] at h1
    exact (mul_ne_zero ha hb) h1
  add_mem' := by
    intro a b ha hb h
    obtain ⟨c, hc⟩ := Rat.add_den_dvd a b
    have h1 : ((a.den * b.den : ℕ) : ZMod p) = 0 := by rw [hc, Nat.cast_mul, h, zero_mul]
    rw [Nat.cast_mul] at h1
    exact (mul_ne_zero ha hb) h1
  one_mem' := by simp
  zero_mem' := by simp
  neg_mem' := by
    intro a ha
    simpa using ha

variable (p : ℕ) [hp : Fact p.Prime]

theorem mem_Zp {q : ℚ} : q ∈ Zp p ↔ (q.den : ZMod p) ≠ 0 := Iff.rfl

/-- The reduction modulo `p`. -/
def red : Zp p →+* ZMod p where
  toFun q := ((q : ℚ) : ZMod p)
  map_one' := by simp
  map_zero' := by simp
  map_add' a b := Rat.cast_add_of_ne_zero a.2 b.2
  map_mul' a b := Rat.cast_mul_of_ne_zero a.2 b.2

theorem red_apply (q : Zp p) : red p q = ((q : ℚ) : ZMod p) := rfl

theorem int_mem (z : ℤ) : (z : ℚ) ∈ Zp p := by simp

theorem red_surjective : Function.Surjective (red p) := by
  intro x
  refine ⟨⟨((x.val : ℤ) : ℚ), int_mem p _⟩, ?_⟩
  change ((((x.val : ℤ)) : ℚ) : ZMod p) = x
  rw [Rat.cast_intCast, Int.cast_natCast, ZMod.natCast_zmod_val]

theorem isUnit_of_red {q : Zp p} (h : red p q ≠ 0) : IsUnit q := by
  have hq : (q : ℚ) ≠ 0 := by
    intro h0
    apply h
    rw [red_apply, h0]
    simp
  have hnum : ((q : ℚ).num : ZMod p) ≠ 0 := by
    intro h0
    apply h
    rw [red_apply, Rat.cast_def, h0, zero_div]
  have hinv : (q : ℚ)⁻¹ ∈ Zp p := by
    rw [mem_Zp]
    rw [Rat.den_inv_of_ne_zero hq]
    intro h0
    apply hnum
    rw [ZMod.natCast_eq_zero_iff] at h0
    rw [ZMod.intCast_zmod_eq_zero_iff_dvd]
    rwa [← Int.natCast_dvd] at h0
  exact IsUnit.of_mul_eq_one ⟨(q : ℚ)⁻¹, hinv⟩ (Subtype.ext (mul_inv_cancel₀ hq))

theorem ker_le_jacobson : RingHom.ker (red p) ≤ Ideal.jacobson ⊥ := by
  intro x hx
  rw [Ideal.mem_jacobson_bot]
  intro y
  apply isUnit_of_red
  rw [map_add, map_mul, RingHom.mem_ker.mp hx, zero_mul, zero_add, map_one]
  exact one_ne_zero

/-- The inclusion. -/
abbrev inc : Zp p →+* ℚ := (Zp p).subtype

theorem inc_injective : Function.Injective (inc p) := Subtype.coe_injective

theorem exists_integral {f : MvPolynomial (Fin n) ℚ} (h : IntegralAt p f) : ∃ F : MvPolynomial (Fin n) (Zp p), map (inc p) F = f := by
  have : f ∈ Set.range (map (inc p) : MvPolynomial (Fin n) (Zp p) → _) := by
    rw [MvPolynomial.mem_range_map_iff_coeffs_subset]
    intro c hc
    obtain ⟨u, hu, rfl⟩ := mem_coeffs_iff.mp hc
    refine ⟨⟨f.coeff u, ?_⟩, rfl⟩
    rw [mem_Zp, Ne, ZMod.natCast_eq_zero_iff]
    exact h u
  exact this

theorem reduce_map (F : MvPolynomial (Fin n) (Zp p)) : reduceMod p (map (inc p) F) = map (red p) F := by
  ext u
  rw [coeff_reduceMod, coeff_map, coeff_map, red_apply, Rat.cast_def]
  rfl

theorem integral_map (F : MvPolynomial (Fin n) (Zp p)) : IntegralAt p (map (inc p) F) := by
  intro u
  rw [coeff_map, ← ZMod.natCast_eq_zero_iff]
  exact (F.coeff u).2

/-! ### Standard monomials -/

section
variable {K : Type*} [Field K]

/-- Modulo an ideal the monomials that no leading monomial divides are linearly independent. -/
theorem standard_independent {m : MonomialOrder (Fin n)} {I : Ideal (MvPolynomial (Fin n) K)} {G : Set (MvPolynomial (Fin n) K)}
    (hG : IsGroebner m I G) : LinearIndependent K fun u : { u : Fin n →₀ ℕ | ∀ g ∈ G, g ≠ 0 → ¬ m.degree g ≤ u } =>
      Ideal.Quotient.mk I (monomial u.1 (1 : K)) := by
  classical
  rw [linearIndependent_iff']
  intro s c hc
  set f := ∑ i ∈ s, monomial i.1 (c i) with hf
  have hfI : f ∈ I := by
    rw [← Ideal.Quotient.eq_zero_iff_mem, hf, map_sum, ← hc]
    refine Finset.sum_congr rfl fun i _ => ?_
    have : c i • Ideal.Quotient.mk I (monomial i.1 (1 : K)) = Ideal.Quotient.mk I (c i • monomial i.1 (1 : K)) := rfl
    rw [this, smul_monomial, smul_eq_mul, mul_one]
  have hcoef : ∀ i ∈ s, coeff i.1 f = c i := by
    intro i hi
    rw [hf, coeff_sum, Finset.sum_eq_single i]
    · rw [coeff_monomial, if_pos rfl]
    · intro j _ hj
      rw [coeff_monomial, if_neg]
      intro he
      exact hj (Subtype.ext he)
    · exact fun h => absurd hi h
  have hf0 : f = 0 := by
    by_contra hne
    obtain ⟨g, hg, hg0, hle⟩ := hG.2 f hfI hne
    have hd := m.degree_mem_support hne
    rw [mem_support_iff] at hd
    apply hd
    rw [hf, coeff_sum]
    refine Finset.sum_eq_zero fun i _ => ?_
    rw [coeff_monomial, if_neg]
    intro he
    exact i.2 g hg hg0 (he ▸ hle)
  intro i hi
  rw [← hcoef i hi, hf0, coeff_zero]

theorem standard_finite {m : MonomialOrder (Fin n)} {I : Ideal (MvPolynomial (Fin n) K)} {G : Set (MvPolynomial (Fin n) K)}
    (hG : IsGroebner m I G) (hf : Module.Finite K (MvPolynomial (Fin n) K ⧸ I)) :
    { u : Fin n →₀ ℕ | ∀ g ∈ G, g ≠ 0 → ¬ m.degree g ≤ u }.Finite := (standard_independent hG).finite

/-- They are a basis. -/
theorem standard_basis {m : MonomialOrder (Fin n)} {I : Ideal (MvPolynomial (Fin n) K)} {G : Set (MvPolynomial (Fin n) K)}
    (hG : IsReducedGroebner m I G) :
    Nonempty (Module.Basis { u : Fin n →₀ ℕ | ∀ g ∈ G, g ≠ 0 → ¬ m.degree g ≤ u } K (MvPolynomial (Fin n) K ⧸ I)) := by
  refine ⟨Module.Basis.mk (standard_independent hG.1) ?_⟩
  intro a _
  obtain ⟨F, rfl⟩ := Ideal.Quotient.mk_surjective a
  obtain ⟨g, r, h1, h2, h3⟩ := m.div (b := fun i : G => i.1) (fun i => by rw [hG.2.1 _ i.2]; exact isUnit_one) F
  have hr : Ideal.Quotient.mk I F = Ideal.Quotient.mk I r := by
    rw [Ideal.Quotient.eq, h1, add_sub_cancel_right, Finsupp.linearCombination_apply]
    exact Ideal.sum_mem _ fun i _ => by simpa using Ideal.mul_mem_left _ _ (hG.1.1 _ i.2)
  rw [hr, r.as_sum, map_sum]
  refine Submodule.sum_mem _ fun u hu => ?_
  have : Ideal.Quotient.mk I (monomial u (coeff u r)) = coeff u r • Ideal.Quotient.mk I (monomial u (1 : K)) := by
    change _ = Ideal.Quotient.mk I (coeff u r • monomial u (1 : K))
    rw [smul_monomial, smul_eq_mul, mul_one]
  rw [this]
  exact Submodule.smul_mem _ _ (Submodule.subset_span ⟨⟨u, fun g hg _ => h3 u hu ⟨g, hg⟩⟩, rfl⟩)

end

/-! ### The ideal over the local ring -/

section
variable {m : MonomialOrder (Fin n)} {IQ : Ideal (MvPolynomial (Fin n) ℚ)} {GQ : Set (MvPolynomial (Fin n) ℚ)}
  {Ip : Ideal (MvPolynomial (Fin n) (ZMod p))}

/-- The basis with coefficients in the local ring. -/
def GR (GQ : Set (MvPolynomial (Fin n) ℚ)) : Set (MvPolynomial (Fin n) (Zp p)) := { F | map (inc p) F ∈ GQ }

theorem degree_inc (F : MvPolynomial (Fin n) (Zp p)) : m.degree (map (inc p) F) = m.degree F := by
  unfold MonomialOrder.degree
  rw [support_map_of_injective _ (inc_injective p)]

theorem leadingCoeff_GR (hG : IsReducedGroebner m IQ GQ) {F : MvPolynomial (Fin n) (Zp p)} (hF : F ∈ GR p GQ) : m.leadingCoeff F = 1 := by
  have h := hG.2.1 _ hF
  unfold MonomialOrder.leadingCoeff at h ⊢
  rw [degree_inc, coeff_map] at h
  exact Subtype.ext h

/-- Division by the basis over the local ring. -/
theorem division (hG : IsReducedGroebner m IQ GQ) (hint : ∀ g ∈ GQ, IntegralAt p g) (F : MvPolynomial (Fin n) (Zp p)) :
    ∃ r, F - r ∈ Ideal.span (GR p GQ) ∧ ∀ u ∈ r.support, ∀ g ∈ GQ, ¬ m.degree g ≤ u := by
  obtain ⟨g, r, h1, h2, h3⟩ := m.div (b := fun i : GR p GQ => i.1)
    (fun i => by rw [leadingCoeff_GR p hG i.2]; exact isUnit_one) F
  refine ⟨r, ?_, ?_⟩
  · rw [h1, add_sub_cancel_right, Finsupp.linearCombination_apply]
    exact Ideal.sum_mem _ fun i _ => by simpa using Ideal.mul_mem_left _ _ (Ideal.subset_span i.2)
  · intro u hu g' hg'
    obtain ⟨g'', rfl⟩ := exists_integral p (hint g' hg')
    rw [degree_inc]
    exact h3 u hu ⟨g'', hg'⟩

theorem span_GR_le (hG : IsReducedGroebner m IQ GQ) {F : MvPolynomial (Fin n) (Zp p)} (h : F ∈ Ideal.span (GR p GQ)) :
    map (inc p) F ∈ IQ := by
  have : Ideal.span (GR p GQ) ≤ IQ.comap (map (inc p)) := by
    rw [Ideal.span_le]
    intro g hg
    exact hG.1.1 _ hg
  exact this h

theorem mem_span_GR (hG : IsReducedGroebner m IQ GQ) (hint : ∀ g ∈ GQ, IntegralAt p g) {F : MvPolynomial (Fin n) (Zp p)}
    (h : map (inc p) F ∈ IQ) : F ∈ Ideal.span (GR p GQ) := by
  obtain ⟨r, h1, h2⟩ := division p hG hint F
  have hr : map (inc p) r ∈ IQ := by
    have := IQ.sub_mem h (span_GR_le p hG h1)
    rwa [map_sub, sub_sub_cancel] at this
  have h0 : r = 0 := by
    by_contra hne
    have hne' : map (inc p) r ≠ 0 := fun h => hne (map_injective _ (inc_injective p) (by rw [h, map_zero]))
    obtain ⟨g, hg, _, hle⟩ := hG.1.2 _ hr hne'
    rw [degree_inc] at hle
    exact h2 _ (m.degree_mem_support hne) g hg hle
  rwa [h0, sub_zero] at h1

theorem map_span_GR (hint : ∀ g ∈ GQ, IntegralAt p g) (hGp : IsReducedGroebner m Ip (reduceMod p '' GQ)) :
    (Ideal.span (GR p GQ)).map (map (red p)) = Ip := by
  have hs : Ip = Ideal.span (reduceMod p '' GQ) := (groebner_span hGp.1).symm
  rw [hs, Ideal.map_span]
  congr 1
  ext f
  constructor
  · rintro ⟨F, hF, rfl⟩
    exact ⟨_, hF, reduce_map p F⟩
  · rintro ⟨g, hg, rfl⟩
    obtain ⟨F, rfl⟩ := exists_integral p (hint g hg)
    exact ⟨F, hg, (reduce_map p F).symm⟩

/-- An element of the ideal with coefficients in the local ring. -/
theorem reduce_mem (hG : IsReducedGroebner m IQ GQ) (hint : ∀ g ∈ GQ, IntegralAt p g) (hGp : IsReducedGroebner m Ip (reduceMod p '' GQ))
    {F : MvPolynomial (Fin n) (Zp p)} (h : map (inc p) F ∈ IQ) : map (red p) F ∈ Ip := by
  rw [← map_span_GR p hint hGp]
  exact Ideal.mem_map_of_mem _ (mem_span_GR p hG hint h)

theorem finite_quot (hG : IsReducedGroebner m IQ GQ) (hint : ∀ g ∈ GQ, IntegralAt p g) (hGp : IsReducedGroebner m Ip (reduceMod p '' GQ))
    (hf : Module.Finite (ZMod p) (MvPolynomial (Fin n) (ZMod p) ⧸ Ip)) :
    Module.Finite (Zp p) (MvPolynomial (Fin n) (Zp p) ⧸ Ideal.span (GR p GQ)) := by
  classical
  have hS := standard_finite hGp.1 hf
  set S := { u : Fin n →₀ ℕ | ∀ g ∈ reduceMod p '' GQ, g ≠ 0 → ¬ m.degree g ≤ u } with hSdef
  refine ⟨⟨hS.toFinset.image fun u => Ideal.Quotient.mk _ (monomial u (1 : Zp p)), ?_⟩⟩
  rw [eq_top_iff]
  intro a _
  obtain ⟨F, rfl⟩ := Ideal.Quotient.mk_surjective a
  obtain ⟨r, h1, h2⟩ := division p hG hint F
  rw [Ideal.Quotient.eq.mpr h1, r.as_sum, map_sum]
  refine Submodule.sum_mem _ fun u hu => ?_
  have : Ideal.Quotient.mk (Ideal.span (GR p GQ)) (monomial u (coeff u r)) =
      coeff u r • Ideal.Quotient.mk (Ideal.span (GR p GQ)) (monomial u (1 : Zp p)) := by
    change _ = Ideal.Quotient.mk (Ideal.span (GR p GQ)) (coeff u r • monomial u (1 : Zp p))
    rw [smul_monomial, smul_eq_mul, mul_one]
  rw [this]
  refine Submodule.smul_mem _ _ (Submodule.subset_span ?_)
  rw [Finset.coe_image]
  refine ⟨u, ?_, rfl⟩
  rw [Set.Finite.coe_toFinset]
  rintro _ ⟨g, hg, rfl⟩ _
  rw [(reduce_monic p (hG.2.1 g hg)).1]
  exact h2 u hu g hg

/-- Modulo a lucky prime the quotient has the same dimension. -/
theorem lucky_dim (hG : IsReducedGroebner m IQ GQ) (hGp : IsReducedGroebner m Ip (reduceMod p '' GQ)) :
    (IQ = ⊤ ↔ Ip = ⊤) ∧
    (Module.Finite ℚ (MvPolynomial (Fin n) ℚ ⧸ IQ) ↔ Module.Finite (ZMod p) (MvPolynomial (Fin n) (ZMod p) ⧸ Ip)) ∧
    Module.finrank ℚ (MvPolynomial (Fin n) ℚ ⧸ IQ) = Module.finrank (ZMod p) (MvPolynomial (Fin n) (ZMod p) ⧸ Ip) := by
  have hS : { u : Fin n →₀ ℕ | ∀ g ∈ reduceMod p '' GQ, g ≠ 0 → ¬ m.degree g ≤ u } =
      { u : Fin n →₀ ℕ | ∀ g ∈ GQ, g ≠ 0 → ¬ m.degree g ≤ u } := by
    ext u
    constructor
    · intro h g hg _
      have h1 := reduce_monic p (hG.2.1 g hg)
      rw [← h1.1]
      refine h _ ⟨g, hg, rfl⟩ fun h0 => ?_
      have := h1.2.1
      rw [h0, MonomialOrder.leadingCoeff_zero] at this
      exact zero_ne_one this
    · rintro h _ ⟨g, hg, rfl⟩ h0
      rw [(reduce_monic p (hG.2.1 g hg)).1]
      refine h g hg fun h1 => h0 ?_
      have := hG.2.1 g hg
      rw [h1, MonomialOrder.leadingCoeff_zero] at this
      exact absurd this zero_ne_one
  obtain ⟨B⟩ := standard_basis hG
  obtain ⟨B'⟩ := standard_basis hGp
  rw [hS] at B'
  set S := { u : Fin n →₀ ℕ | ∀ g ∈ GQ, g ≠ 0 → ¬ m.degree g ≤ u }
  refine ⟨?_, ?_, ?_⟩
  · rw [← Ideal.Quotient.subsingleton_iff, ← Ideal.Quotient.subsingleton_iff, B.repr.toEquiv.subsingleton_congr,
      B'.repr.toEquiv.subsingleton_congr]
    rcases isEmpty_or_nonempty S with h | ⟨⟨i⟩⟩
    · exact ⟨fun _ => inferInstance, fun _ => inferInstance⟩
    · constructor <;> intro hs
      · exact absurd (DFunLike.congr_fun (Subsingleton.elim (Finsupp.single i (1 : ℚ)) 0) i) (by simp)
      · exact absurd (DFunLike.congr_fun (Subsingleton.elim (Finsupp.single i (1 : ZMod p)) 0) i) (by simp)
  · constructor <;> intro hf
    · have := Module.Finite.finite_basis B
      exact Module.Finite.of_basis B'
    · have := Module.Finite.finite_basis B'
      exact Module.Finite.of_basis B
  · rw [Module.finrank_eq_nat_card_basis B, Module.finrank_eq_nat_card_basis B']

end

/-! ### Ideals in shape position -/

section
variable {K : Type*} [Field K] {I : Ideal (MvPolynomial (Fin n) K)} {last : Fin n} {w : Polynomial K} {c : Fin n → Polynomial K}

omit hp in
/-- Substitution of the parametrization. -/
theorem subst_mem {R : Type*} [CommRing R] {J : Ideal (MvPolynomial (Fin n) R)} {last : Fin n} {c : Fin n → Polynomial R}
    (hc : ∀ k, k ≠ last → X k + Polynomial.aeval (X last) (c k) ∈ J) (f : MvPolynomial (Fin n) R) :
    f - Polynomial.aeval (X last) (aeval (fun k => if k = last then Polynomial.X else - c k) f) ∈ J := by
  induction f using MvPolynomial.induction_on with
  | C a => simp [MvPolynomial.algebraMap_eq, Polynomial.algebraMap_eq]
  | add f g hf hg =>
    rw [map_add, map_add, add_sub_add_comm]
    exact J.add_mem hf hg
  | mul_X f k hf =>
    set σ : Fin n → Polynomial R := fun k => if k = last then Polynomial.X else - c k with hσ
    have hX : X k - Polynomial.aeval (X last : MvPolynomial (Fin n) R) (σ k) ∈ J := by
      by_cases h : k = last
      · subst h
        simp [hσ]
      · simp only [hσ, if_neg h, map_neg, sub_neg_eq_add]
        exact hc k h
    rw [map_mul, map_mul, aeval_X]
    have : f * X k - Polynomial.aeval (X last) (aeval σ f) * Polynomial.aeval (X last) (σ k) =
        (f - Polynomial.aeval (X last) (aeval σ f)) * X k + Polynomial.aeval (X last) (aeval σ f) * (X k - Polynomial.aeval (X last) (σ k)) := by
      ring
    rw [this]
    exact J.add_mem (J.mul_mem_right _ hf) (J.mul_mem_left _ hX)

omit hp in
theorem normal_mem {R : Type*} [CommRing R] {J : Ideal (MvPolynomial (Fin n) R)} {last : Fin n} {c : Fin n → Polynomial R} {w : Polynomial R}
    (hw : w.Monic) (hwJ : Polynomial.aeval (X last) w ∈ J) (hc : ∀ k, k ≠ last → X k + Polynomial.aeval (X last) (c k) ∈ J)
    (f : MvPolynomial (Fin n) R) [Nontrivial R] : ∃ r : Polynomial R, r.degree < w.degree ∧ f - Polynomial.aeval (X last) r ∈ J := by
  set g := aeval (fun k => if k = last then Polynomial.X else - c k) f with hg
  refine ⟨g %ₘ w, Polynomial.degree_modByMonic_lt _ hw, ?_⟩
  have h1 := subst_mem hc f
  rw [← hg] at h1
  have h2 : Polynomial.aeval (X last : MvPolynomial (Fin n) R) g - Polynomial.aeval (X last) (g %ₘ w) ∈ J := by
    rw [← map_sub, Polynomial.modByMonic_eq_sub_mul_div, sub_sub_cancel, map_mul]
    exact J.mul_mem_right _ hwJ
  have := J.add_mem h1 h2
  rwa [sub_add_sub_cancel] at this

omit hp in
theorem _root_.Verif.Spec.Shape.w_mem (h : Shape I last w c) : Polynomial.aeval (X last) w ∈ I := by
  rw [h.span]; exact Ideal.subset_span (.inl rfl)

omit hp in
theorem _root_.Verif.Spec.Shape.c_mem (h : Shape I last w c) {k : Fin n} (hk : k ≠ last) : X k + Polynomial.aeval (X last) (c k) ∈ I := by
  rw [h.span]; exact Ideal.subset_span (.inr ⟨k, hk, rfl⟩)

omit hp in
theorem _root_.Verif.Spec.Shape.dvd (h : Shape I last w c) {r : Polynomial K} (hr : Polynomial.aeval (X last) r ∈ I) : w ∣ r := by
  set σ : Fin n → Polynomial K := fun k => if k = last then Polynomial.X else - c k with hσ
  have hcomp : ∀ f : Polynomial K, aeval σ (Polynomial.aeval (X last : MvPolynomial (Fin n) K) f) = f := by
    intro f
    rw [← Polynomial.aeval_algHom_apply, aeval_X, hσ]
    simp
  have hI : I ≤ (Ideal.span {w}).comap (aeval σ : MvPolynomial (Fin n) K →ₐ[K] Polynomial K).toRingHom := by
    conv_lhs => rw [h.span]
    rw [Ideal.span_le]
    rintro g (rfl | ⟨k, hk, rfl⟩)
    · change aeval σ _ ∈ Ideal.span {w}
      rw [hcomp]
      exact Ideal.subset_span rfl
    · change aeval σ _ ∈ Ideal.span {w}
      rw [map_add, hcomp, aeval_X, hσ]
      simp [hk]
  have := hI hr
  change aeval σ _ ∈ Ideal.span {w} at this
  rw [hcomp, Ideal.mem_span_singleton] at this
  exact this

omit hp in
theorem _root_.Verif.Spec.Shape.zero (h : Shape I last w c) {r : Polynomial K} (hr : Polynomial.aeval (X last) r ∈ I) (hd : r.degree < w.degree) : r = 0 :=
  Polynomial.eq_zero_of_dvd_of_degree_lt (h.dvd hr) hd

omit hp in
/-- The parametrization of an ideal in shape position is unique. -/
theorem _root_.Verif.Spec.Shape.unique (h : Shape I last w c) {w' : Polynomial K} {c' : Fin n → Polynomial K} (h' : Shape I last w' c') :
    w = w' ∧ ∀ k, k ≠ last → c k = c' k := by
  have hw : w = w' := Polynomial.eq_of_monic_of_associated h.monic h'.monic (associated_of_dvd_dvd (h.dvd h'.w_mem) (h'.dvd h.w_mem))
  subst hw
  refine ⟨rfl, fun k hk => ?_⟩
  have h1 := I.sub_mem (h.c_mem hk) (h'.c_mem hk)
  rw [add_sub_add_left_eq_sub, ← map_sub] at h1
  exact sub_eq_zero.mp (h.zero h1 (lt_of_le_of_lt (Polynomial.degree_sub_le _ _) (max_lt (h.degree k hk) (h'.degree k hk))))

omit hp in
theorem _root_.Verif.Spec.Shape.points (h : Shape I last w c) {L : Type*} [Field L] [Algebra K L] (z : Fin n → L) :
    (∀ g ∈ I, aeval z g = 0) ↔ Polynomial.aeval (z last) w = 0 ∧ ∀ k, k ≠ last → z k = -Polynomial.aeval (z last) (c k) := by
  have hev : ∀ f : Polynomial K, aeval z (Polynomial.aeval (X last : MvPolynomial (Fin n) K) f) = Polynomial.aeval (z last) f := by
    intro f
    rw [← Polynomial.aeval_algHom_apply, aeval_X]
  constructor
  · intro hz
    refine ⟨by rw [← hev]; exact hz _ h.w_mem, fun k hk => ?_⟩
    have := hz _ (h.c_mem hk)
    rw [map_add, hev, aeval_X] at this
    exact eq_neg_of_add_eq_zero_left this
  · rintro ⟨h1, h2⟩
    have : I ≤ RingHom.ker (aeval z : MvPolynomial (Fin n) K →ₐ[K] L).toRingHom := by
      conv_lhs => rw [h.span]
      rw [Ideal.span_le]
      rintro g (rfl | ⟨k, hk, rfl⟩)
      · change aeval z _ = 0
        rw [hev, h1]
      · change aeval z _ = 0
        rw [map_add, hev, aeval_X, h2 k hk, neg_add_cancel]
    intro g hg
    exact this hg

omit hp in
/-- The dimension of the quotient is the degree. -/
theorem _root_.Verif.Spec.Shape.finrank (h : Shape I last w c) : Module.Finite K (MvPolynomial (Fin n) K ⧸ I) ∧
    Module.finrank K (MvPolynomial (Fin n) K ⧸ I) = w.natDegree := by
  let φ : Polynomial.degreeLT K w.natDegree →ₗ[K] MvPolynomial (Fin n) K ⧸ I :=
    ((Ideal.Quotient.mkₐ K I).comp (Polynomial.aeval (X last : MvPolynomial (Fin n) K))).toLinearMap.comp (Polynomial.degreeLT K w.natDegree).subtype
  have hφ : ∀ f, φ f = Ideal.Quotient.mk I (Polynomial.aeval (X last) f.1) := fun _ => rfl
  have hdeg : ∀ f : Polynomial K, f ∈ Polynomial.degreeLT K w.natDegree ↔ f.degree < w.degree := by
    intro f
    rw [Polynomial.mem_degreeLT, Polynomial.degree_eq_natDegree h.monic.ne_zero]
  have hinj : Function.Injective φ := by
    rw [← LinearMap.ker_eq_bot, LinearMap.ker_eq_bot']
    intro f hf
    rw [hφ, Ideal.Quotient.eq_zero_iff_mem] at hf
    exact Subtype.ext (h.zero hf ((hdeg _).mp f.2))
  have hsurj : Function.Surjective φ := by
    intro a
    obtain ⟨f, rfl⟩ := Ideal.Quotient.mk_surjective a
    obtain ⟨r, h1, h2⟩ := normal_mem h.monic h.w_mem (fun k hk => h.c_mem hk) f
    exact ⟨⟨r, (hdeg _).mpr h1⟩, (Ideal.Quotient.eq.mpr h2).symm⟩
  let e := LinearEquiv.ofBijective φ ⟨hinj, hsurj⟩
  have e1 := (Polynomial.degreeLTEquiv K w.natDegree)
  have : Module.Finite K (Polynomial.degreeLT K w.natDegree) := Module.Finite.equiv e1.symm
  refine ⟨Module.Finite.equiv e, ?_⟩
  rw [← e.finrank_eq, e1.finrank_eq, Module.finrank_fin_fun]

omit hp in
/-- Polynomials that are not reduced. -/
theorem shape_of_span (hw : w.Monic)
    (hI : I = Ideal.span ({Polynomial.aeval (X last) w} ∪ { g | ∃ k : Fin n, k ≠ last ∧ g = X k + Polynomial.aeval (X last) (c k) })) :
    Shape I last w fun k => c k % w := by
  have hmod : ∀ k, Polynomial.aeval (X last : MvPolynomial (Fin n) K) (c k) =
      Polynomial.aeval (X last) (c k % w) + Polynomial.aeval (X last) w * Polynomial.aeval (X last) (c k / w) := by
    intro k
    rw [← map_mul, ← map_add, EuclideanDomain.mod_add_div]
  refine ⟨hw, fun k _ => Polynomial.degree_mod_lt _ hw.ne_zero, ?_⟩
  rw [hI]
  apply le_antisymm
  · rw [Ideal.span_le]
    rintro g (rfl | ⟨k, hk, rfl⟩)
    · exact Ideal.subset_span (.inl rfl)
    · rw [hmod, ← add_assoc]
      exact Ideal.add_mem _ (Ideal.subset_span (.inr ⟨k, hk, rfl⟩)) (Ideal.mul_mem_right _ _ (Ideal.subset_span (.inl rfl)))
  · rw [Ideal.span_le]
    rintro g (rfl | ⟨k, hk, rfl⟩)
    · exact Ideal.subset_span (.inl rfl)
    · have : X k + Polynomial.aeval (X last : MvPolynomial (Fin n) K) (c k % w) =
          X k + Polynomial.aeval (X last) (c k) - Polynomial.aeval (X last) w * Polynomial.aeval (X last) (c k / w) := by
        rw [hmod]; ring
      rw [this]
      exact Ideal.sub_mem _ (Ideal.subset_span (.inr ⟨k, hk, rfl⟩)) (Ideal.mul_mem_right _ _ (Ideal.subset_span (.inl rfl)))

end

/-! ### Lifting -/

/-- A multiple of a rational polynomial that is not zero modulo `p`. -/
theorem primitive_multiple {r : Polynomial ℚ} (hr : r ≠ 0) : ∃ (a : ℚ) (P : Polynomial (Zp p)), P.map (inc p) = Polynomial.C a * r ∧
    P.map (red p) ≠ 0 := by
  obtain ⟨b, hbm, hb⟩ := IsLocalization.integerNormalization_spec (nonZeroDivisors ℤ) r
  set A := IsLocalization.integerNormalization (nonZeroDivisors ℤ) r with hA
  have hb0 : b ≠ 0 := nonZeroDivisors.ne_zero hbm
  have hA0 : A ≠ 0 := by
    intro h0
    rw [h0, Polynomial.map_zero] at hb
    have := hb.symm
    rw [smul_eq_zero] at this
    exact this.elim hb0 hr
  have hc0 : A.content ≠ 0 := by rwa [Ne, Polynomial.content_eq_zero_iff]
  have e1 := A.eq_C_content_mul_primPart
  refine ⟨(A.content : ℚ)⁻¹ * b, A.primPart.map (Int.castRingHom (Zp p)), ?_, ?_⟩
  · rw [Polynomial.map_map]
    have h1 : (inc p).comp (Int.castRingHom (Zp p)) = algebraMap ℤ ℚ := RingHom.ext_int _ _
    rw [h1]
    have h2 : (A.content : ℚ) ≠ 0 := by exact_mod_cast hc0
    have h3 : Polynomial.C (A.content : ℚ) * A.primPart.map (algebraMap ℤ ℚ) = Polynomial.C (b : ℚ) * r := by
      have := congrArg (Polynomial.map (algebraMap ℤ ℚ)) e1
      rw [Polynomial.map_mul, Polynomial.map_C, hb] at this
      rw [← Polynomial.smul_eq_C_mul (b : ℚ)]
      rw [Int.cast_smul_eq_zsmul]
      exact this.symm
    rw [Polynomial.C_mul, mul_assoc, ← h3, ← mul_assoc, ← Polynomial.C_mul, inv_mul_cancel₀ h2, Polynomial.C_1, one_mul]
  · rw [Polynomial.map_map]
    have h1 : (red p).comp (Int.castRingHom (Zp p)) = Int.castRingHom (ZMod p) := RingHom.ext_int _ _
    rw [h1]
    intro h0
    have hd : Polynomial.C (p : ℤ) ∣ A.primPart := by
      rw [Polynomial.C_dvd_iff_dvd_coeff]
      intro i
      have := congrArg (fun f => Polynomial.coeff f i) h0
      simp only [Polynomial.coeff_map, eq_intCast, Polynomial.coeff_zero] at this
      exact (ZMod.intCast_zmod_eq_zero_iff_dvd _ _).mp this
    have := A.isPrimitive_primPart _ hd
    rw [Int.isUnit_iff] at this
    have := hp.out.two_le
    omega

section
variable {m : MonomialOrder (Fin n)} {IQ : Ideal (MvPolynomial (Fin n) ℚ)} {GQ : Set (MvPolynomial (Fin n) ℚ)}
  {Ip : Ideal (MvPolynomial (Fin n) (ZMod p))}

omit hp in
theorem map_aeval {R S : Type*} [CommRing R] [CommRing S] (φ : R →+* S) (last : Fin n) (f : Polynomial R) :
    map φ (Polynomial.aeval (X last : MvPolynomial (Fin n) R) f) = Polynomial.aeval (X last) (f.map φ) := by
  rw [Polynomial.aeval_def, Polynomial.aeval_def, Polynomial.hom_eval₂, Polynomial.eval₂_map, map_X]
  congr 1
  ext a
  simp [MvPolynomial.algebraMap_eq]

/-- **Lifting of a parametrization**: if modulo a lucky prime the ideal is in shape position, then it is over the rationals; the parametrization
over the rationals is `p`-integral and its reduction is the one modulo `p`. -/
theorem shape_lift (hG : IsReducedGroebner m IQ GQ) (hint : ∀ g ∈ GQ, IntegralAt p g) (hGp : IsReducedGroebner m Ip (reduceMod p '' GQ))
    {last : Fin n} {w' : Polynomial (ZMod p)} {c' : Fin n → Polynomial (ZMod p)} (hs : Shape Ip last w' c') :
    ∃ (W : Polynomial (Zp p)) (Cs : Fin n → Polynomial (Zp p)), W.Monic ∧ W.map (red p) = w' ∧
      (∀ k, k ≠ last → (Cs k).degree < W.degree ∧ (Cs k).map (red p) = c' k) ∧
      Shape IQ last (W.map (inc p)) fun k => (Cs k).map (inc p) := by
  set J := Ideal.span (GR p GQ) with hJ
  set d := w'.natDegree with hd
  have hfin : Module.Finite (Zp p) (MvPolynomial (Fin n) (Zp p) ⧸ J) := finite_quot p hG hint hGp hs.finrank.1
  have hmapJ : J.map (map (red p)) = Ip := map_span_GR p hint hGp
  have hsurj : Function.Surjective (map (red p) : MvPolynomial (Fin n) (Zp p) → _) := map_surjective _ (red_surjective p)
  have hw'd : w'.degree = d := Polynomial.degree_eq_natDegree hs.monic.ne_zero
  let φ : Polynomial (Zp p) →ₗ[Zp p] MvPolynomial (Fin n) (Zp p) ⧸ J :=
    ((Ideal.Quotient.mkₐ (Zp p) J).comp (Polynomial.aeval (X last : MvPolynomial (Fin n) (Zp p)))).toLinearMap
  have hφ : ∀ f, φ f = Ideal.Quotient.mk J (Polynomial.aeval (X last) f) := fun _ => rfl
  set N := (Polynomial.degreeLT (Zp p) d).map φ with hN
  have hnak : (⊤ : Submodule (Zp p) (MvPolynomial (Fin n) (Zp p) ⧸ J)) ≤ N := by
    refine Submodule.le_of_le_smul_of_le_jacobson_bot (I := RingHom.ker (red p)) Module.Finite.fg_top (ker_le_jacobson p) ?_
    intro a _
    obtain ⟨F, rfl⟩ := Ideal.Quotient.mk_surjective a
    obtain ⟨r', h1, h2⟩ := normal_mem hs.monic hs.w_mem (fun k hk => hs.c_mem hk) (map (red p) F)
    obtain ⟨r, h3, h4⟩ := Polynomial.exists_degree_eq_of_mem_lifts (f := red p) (p := r') (Polynomial.mem_lifts_of_surjective (red_surjective p) r')
    rw [← h3, ← map_aeval, ← map_sub, ← hmapJ] at h2
    obtain ⟨F', h5, h6⟩ := (Ideal.mem_map_iff_of_surjective _ hsurj).mp h2
    have h7 : F - Polynomial.aeval (X last) r - F' ∈ RingHom.ker (map (red p) : MvPolynomial (Fin n) (Zp p) →+* _) := by
      rw [RingHom.mem_ker, map_sub, h6, sub_self]
    rw [MvPolynomial.ker_map] at h7
    have h8 : Ideal.Quotient.mk J F = φ r + Ideal.Quotient.mk J (F - Polynomial.aeval (X last) r - F') := by
      rw [hφ, ← map_add, Ideal.Quotient.eq]
      have : F - (Polynomial.aeval (X last) r + (F - Polynomial.aeval (X last) r - F')) = F' := by ring
      rw [this]
      exact h5
    rw [h8]
    refine Submodule.add_mem_sup ⟨r, ?_, rfl⟩ ?_
    · rw [SetLike.mem_coe, Polynomial.mem_degreeLT, h4, ← hw'd]
      exact h1
    · have e := Ideal.smul_top_eq_map (S := MvPolynomial (Fin n) (Zp p) ⧸ J) (RingHom.ker (red p))
      have e2 : algebraMap (Zp p) (MvPolynomial (Fin n) (Zp p) ⧸ J) = (Ideal.Quotient.mk J).comp C := rfl
      have hm : Ideal.Quotient.mk J (F - Polynomial.aeval (X last) r - F') ∈
          ((RingHom.ker (red p)).map (algebraMap (Zp p) (MvPolynomial (Fin n) (Zp p) ⧸ J))).restrictScalars (Zp p) := by
        rw [Submodule.restrictScalars_mem, e2, ← Ideal.map_map]
        exact Ideal.mem_map_of_mem _ h7
      rw [← e] at hm
      exact hm
  have hex : ∀ F : MvPolynomial (Fin n) (Zp p), ∃ r : Polynomial (Zp p), r.degree < d ∧ F + Polynomial.aeval (X last) r ∈ J := by
    intro F
    obtain ⟨r, h1, h2⟩ := hnak (Submodule.mem_top (x := Ideal.Quotient.mk J F))
    refine ⟨-r, by rw [Polynomial.degree_neg]; exact Polynomial.mem_degreeLT.mp h1, ?_⟩
    rw [hφ] at h2
    rw [map_neg, ← sub_eq_add_neg]
    exact Ideal.Quotient.eq.mp h2.symm
  obtain ⟨W0, hW0, hW0J⟩ := hex (X last ^ d)
  choose Cs hCs hCsJ using fun k => hex (X k)
  set W := Polynomial.X ^ d + W0 with hW
  have hWm : W.Monic := Polynomial.monic_X_pow_add hW0
  have hWd : W.degree = d := by
    rw [hW, Polynomial.degree_add_eq_left_of_degree_lt (by rwa [Polynomial.degree_X_pow]), Polynomial.degree_X_pow]
  have hWJ : Polynomial.aeval (X last) W ∈ J := by
    rw [hW, map_add, map_pow, Polynomial.aeval_X]
    exact hW0J
  have hred : ∀ F ∈ J, map (red p) F ∈ Ip := fun F hF => by rw [← hmapJ]; exact Ideal.mem_map_of_mem _ hF
  have hinc : ∀ F ∈ J, map (inc p) F ∈ IQ := fun F hF => span_GR_le p hG hF
  have hWr : W.map (red p) = w' := by
    have h1 := hred _ hWJ
    rw [map_aeval] at h1
    refine (Polynomial.eq_of_monic_of_dvd_of_natDegree_le hs.monic (hWm.map _) (hs.dvd h1) ?_)
    rw [hWm.natDegree_map, Polynomial.natDegree_eq_of_degree_eq_some hWd]
  refine ⟨W, Cs, hWm, hWr, fun k hk => ⟨by rw [hWd]; exact hCs k, ?_⟩, hWm.map _, ?_, ?_⟩
  · have h1 := hred _ (hCsJ k)
    rw [map_add, map_aeval, map_X] at h1
    have h2 := Ip.sub_mem h1 (hs.c_mem hk)
    rw [add_sub_add_left_eq_sub, ← map_sub] at h2
    refine sub_eq_zero.mp (hs.zero h2 (lt_of_le_of_lt (Polynomial.degree_sub_le _ _) (max_lt ?_ (hs.degree k hk))))
    rw [hw'd]
    exact lt_of_le_of_lt (Polynomial.degree_map_le) (hCs k)
  · intro k _
    rw [hWm.degree_map, hWd]
    exact lt_of_le_of_lt (Polynomial.degree_map_le) (hCs k)
  · have hwm : (W.map (inc p)).Monic := hWm.map _
    apply le_antisymm
    · intro f hf
      set J' := Ideal.span ({Polynomial.aeval (X last : MvPolynomial (Fin n) ℚ) (W.map (inc p))} ∪
        { g | ∃ k : Fin n, k ≠ last ∧ g = X k + Polynomial.aeval (X last) ((Cs k).map (inc p)) }) with hJ'
      obtain ⟨r, h1, h2⟩ := normal_mem (J := J') (c := fun k => (Cs k).map (inc p)) hwm (Ideal.subset_span (.inl rfl))
        (fun k hk => Ideal.subset_span (.inr ⟨k, hk, rfl⟩)) f
      have hle : J' ≤ IQ := by
        rw [hJ', Ideal.span_le]
        rintro g (rfl | ⟨k, hk, rfl⟩)
        · rw [← map_aeval]
          exact hinc _ hWJ
        · have := hinc _ (hCsJ k)
          rwa [map_add, map_aeval, map_X] at this
      have h3 : Polynomial.aeval (X last) r ∈ IQ := by
        have := IQ.sub_mem hf (hle h2)
        rwa [sub_sub_cancel] at this
      have h0 : r = 0 := by
        by_contra hne
        obtain ⟨a, P, hP, hP0⟩ := primitive_multiple p hne
        have h4 : map (inc p) (Polynomial.aeval (X last) P) ∈ IQ := by
          rw [map_aeval, hP, map_mul]
          exact IQ.mul_mem_left _ h3
        have h5 := reduce_mem p hG hint hGp h4
        rw [map_aeval] at h5
        refine hP0 (hs.zero h5 ?_)
        refine lt_of_le_of_lt Polynomial.degree_map_le ?_
        rw [← Polynomial.degree_map_eq_of_injective (inc_injective p), hP]
        refine lt_of_le_of_lt (b := r.degree) (le_trans (Polynomial.degree_mul_le _ _) (by
          simpa using add_le_add_left (Polynomial.degree_C_le (a := a)) r.degree)) ?_
        rw [hw'd, ← hWd, ← hWm.degree_map (inc p)]
        exact h1
      rw [h0, map_zero, sub_zero] at h2
      exact h2
    · rw [Ideal.span_le]
      rintro g (rfl | ⟨k, hk, rfl⟩)
      · rw [← map_aeval]
        exact hinc _ hWJ
      · have := hinc _ (hCsJ k)
        rwa [map_add, map_aeval, map_X] at this

end

/-! ### Normalization -/

/-- `g` is the reduction of the `p`-integral polynomial `f`. -/
def RedPoly (f : Polynomial ℚ) (g : Polynomial (ZMod p)) : Prop := ∀ i, ¬ p ∣ (f.coeff i).den ∧ g.coeff i = ((f.coeff i : ℚ) : ZMod p)

theorem redPoly_map (F : Polynomial (Zp p)) : RedPoly p (F.map (inc p)) (F.map (red p)) := by
  intro i
  rw [Polynomial.coeff_map, Polynomial.coeff_map, ← ZMod.natCast_eq_zero_iff]
  exact ⟨(F.coeff i).2, rfl⟩

/-- A separable reduction. -/
theorem separable_lift {W : Polynomial (Zp p)} (hW : W.Monic) (hs : (W.map (red p)).Separable) : (W.map (inc p)).Separable := by
  classical
  set w := W.map (inc p) with hw
  have hwm : w.Monic := hW.map _
  by_contra hns
  unfold Polynomial.Separable at hns
  set g := EuclideanDomain.gcd w (Polynomial.derivative w) with hg
  have hg0 : g ≠ 0 := by
    intro h0
    exact hwm.ne_zero (EuclideanDomain.gcd_eq_zero_iff.mp h0).1
  have hgu : ¬ IsUnit g := fun h => hns (EuclideanDomain.gcd_isUnit_iff.mp h)
  obtain ⟨h, hh⟩ := EuclideanDomain.gcd_dvd_left w (Polynomial.derivative w)
  obtain ⟨q, hq⟩ := EuclideanDomain.gcd_dvd_right w (Polynomial.derivative w)
  rw [← hg] at hh hq
  have hh0 : h ≠ 0 := by
    rintro rfl
    exact hwm.ne_zero (by rw [hh, mul_zero])
  have hdeg : h.natDegree < w.natDegree := by
    have h1 : g.natDegree ≠ 0 := fun h0 => hgu (Polynomial.isUnit_iff_degree_eq_zero.mpr (by
      rw [Polynomial.degree_eq_natDegree hg0, h0]; rfl))
    have h2 := congrArg Polynomial.natDegree hh
    rw [Polynomial.natDegree_mul hg0 hh0] at h2
    omega
  have hdvd : w ∣ h * Polynomial.derivative w := ⟨q, by rw [hq]; nth_rw 1 [hh]; ring⟩
  obtain ⟨a, P, hP, hP0⟩ := primitive_multiple p hh0
  have h1 : W ∣ P * Polynomial.derivative W := by
    rw [← Polynomial.map_dvd_map (inc p) (inc_injective p) hW, Polynomial.map_mul, hP, ← Polynomial.derivative_map, mul_assoc]
    exact hdvd.mul_left _
  have h2 := Polynomial.map_dvd (red p) h1
  rw [Polynomial.map_mul, ← Polynomial.derivative_map] at h2
  have h3 : W.map (red p) ∣ P.map (red p) := IsCoprime.dvd_of_dvd_mul_right hs h2
  refine hP0 (Polynomial.eq_zero_of_dvd_of_natDegree_lt h3 ?_)
  rw [hW.natDegree_map]
  refine lt_of_le_of_lt Polynomial.natDegree_map_le ?_
  rw [← Polynomial.natDegree_map_eq_of_injective (inc_injective p), hP]
  refine lt_of_le_of_lt (Polynomial.natDegree_C_mul_le _ _) ?_
  rw [hw, hW.natDegree_map] at hdeg
  exact hdeg

/-- The coordinate with the derivative of `w`, divided by the degree, as denominator. -/
noncomputable def normCoord {K : Type*} [Field K] (w c : Polynomial K) : Polynomial K :=
  c * (Polynomial.C ((w.natDegree : K)⁻¹) * Polynomial.derivative w) % w

/-- The normalization commutes with the reduction. -/
theorem norm_lift {W C : Polynomial (Zp p)} (hW : W.Monic) (hd : ¬ p ∣ W.natDegree) :
    RedPoly p (normCoord (W.map (inc p)) (C.map (inc p))) (normCoord (W.map (red p)) (C.map (red p))) := by
  have hu : IsUnit ((W.natDegree : ℕ) : Zp p) := by
    apply isUnit_of_red
    rw [map_natCast, Ne, ZMod.natCast_eq_zero_iff]
    exact hd
  obtain ⟨u, hu⟩ := hu
  set V := (C * (Polynomial.C (↑u⁻¹ : Zp p) * Polynomial.derivative W)) %ₘ W with hV
  have key : ∀ {K : Type} [Field K] (φ : Zp p →+* K), V.map φ = normCoord (W.map φ) (C.map φ) := by
    intro K _ φ
    have h1 : φ (↑u⁻¹ : Zp p) = ((W.natDegree : ℕ) : K)⁻¹ := by
      apply eq_inv_of_mul_eq_one_left
      have : φ (↑u⁻¹ : Zp p) * φ ((W.natDegree : ℕ) : Zp p) = 1 := by rw [← hu, ← map_mul, Units.inv_mul, map_one]
      rwa [map_natCast] at this
    unfold normCoord
    rw [hV, Polynomial.map_modByMonic _ hW, Polynomial.map_mul, Polynomial.map_mul, Polynomial.map_C, h1, hW.natDegree_map,
      Polynomial.derivative_map, Polynomial.modByMonic_eq_mod _ (hW.map _)]
  rw [← key, ← key]
  exact redPoly_map p V

/-- **The images**: what a lucky prime says about the parametrization over the rationals. -/
theorem shape_image {m : MonomialOrder (Fin n)} {IQ : Ideal (MvPolynomial (Fin n) ℚ)} {GQ : Set (MvPolynomial (Fin n) ℚ)}
    {Ip : Ideal (MvPolynomial (Fin n) (ZMod p))} (hG : IsReducedGroebner m IQ GQ) (hint : ∀ g ∈ GQ, IntegralAt p g)
    (hGp : IsReducedGroebner m Ip (reduceMod p '' GQ)) {last : Fin n} {w' : Polynomial (ZMod p)} {c' : Fin n → Polynomial (ZMod p)}
    (hw' : w'.Monic) (hsq : Squarefree w') (hI : Ip = Ideal.span ({Polynomial.aeval (X last) w'} ∪
      { g | ∃ k : Fin n, k ≠ last ∧ g = X k + Polynomial.aeval (X last) (c' k) })) (hd : ¬ p ∣ w'.natDegree) :
    ∃ (w : Polynomial ℚ) (c : Fin n → Polynomial ℚ), Shape IQ last w c ∧ w.Separable ∧ w.natDegree = w'.natDegree ∧ RedPoly p w w' ∧
      ∀ k, k ≠ last → RedPoly p (normCoord w (c k)) (normCoord w' (c' k)) := by
  obtain ⟨W, Cs, h1, h2, h3, h4⟩ := shape_lift p hG hint hGp (shape_of_span hw' hI)
  have hdeg : W.natDegree = w'.natDegree := by rw [← h2, h1.natDegree_map]
  refine ⟨_, _, h4, ?_, by rw [h1.natDegree_map, hdeg], h2 ▸ redPoly_map p W, fun k hk => ?_⟩
  · apply separable_lift p h1
    rw [h2]
    exact PerfectField.separable_iff_squarefree.mpr hsq
  · have h5 := norm_lift p (C := Cs k) h1 (by rwa [hdeg])
    rw [h2, (h3 k hk).2] at h5
    have h6 : normCoord w' (c' k % w') = normCoord w' (c' k) := by
      unfold normCoord
      apply Polynomial.mod_eq_of_dvd_sub
      rw [← sub_mul]
      refine Dvd.dvd.mul_right ⟨-(c' k / w'), ?_⟩ _
      have := EuclideanDomain.mod_add_div (c' k) w'
      linear_combination this
    rwa [h6] at h5

end Verif.ShapeQ
