import Mathlib.RingTheory.Ideal.Span
import Mathlib.Tactic.LinearCombination
import Verif.Spec.Groebner

/-! Mathematics of S-pairs: representations below a monomial, the chain and product criteria, and
Buchberger's criterion, for families of monic polynomials. -/

namespace Verif.Groebner

open MvPolynomial Verif.Spec

variable {n : Nat} {K : Type*} [Field K] (m : MonomialOrder (Fin n))

/-- Shorthand: the monic monomial with exponent `a`. -/
noncomputable abbrev X' (a : Fin n →₀ ℕ) : MvPolynomial (Fin n) K := monomial a 1

/-- Combinations of multiples of the `F k` (for `k` in `I`) all of whose leading monomials are below `τ`. -/
noncomputable def Low {ι : Type*} (I : Set ι) (F : ι → MvPolynomial (Fin n) K) (τ : Fin n →₀ ℕ) :
    Submodule K (MvPolynomial (Fin n) K) :=
  Submodule.span K {g | ∃ k ∈ I, ∃ a, g = X' a * F k ∧ m.toSyn (a + m.degree (F k)) < m.toSyn τ}

/-- The S-polynomial of a pair (of monic polynomials) has a representation below the least common multiple
of the leading monomials. -/
def Rep {ι : Type*} (I : Set ι) (F : ι → MvPolynomial (Fin n) K) (i j : ι) : Prop :=
  X' ((m.degree (F i) ⊔ m.degree (F j)) - m.degree (F i)) * F i -
    X' ((m.degree (F i) ⊔ m.degree (F j)) - m.degree (F j)) * F j ∈
    Low m I F (m.degree (F i) ⊔ m.degree (F j))

variable {m}

theorem X'_mul (a b : Fin n →₀ ℕ) (f : MvPolynomial (Fin n) K) : X' a * (X' b * f) = X' (a + b) * f := by
  rw [← mul_assoc, monomial_mul, one_mul]

theorem low_mono {ι : Type*} {I J : Set ι} {F : ι → MvPolynomial (Fin n) K} {σ τ : Fin n →₀ ℕ}
    (hIJ : I ⊆ J) (h : m.toSyn σ ≤ m.toSyn τ) : Low m I F σ ≤ Low m J F τ := by
  apply Submodule.span_mono
  rintro g ⟨k, hk, a, rfl, ha⟩
  exact ⟨k, hIJ hk, a, rfl, lt_of_lt_of_le ha h⟩

/-- Multiplying a representation by a monomial. -/
theorem low_mul {ι : Type*} {I : Set ι} {F : ι → MvPolynomial (Fin n) K} {τ : Fin n →₀ ℕ}
    {f : MvPolynomial (Fin n) K} (hf : f ∈ Low m I F τ) (b : Fin n →₀ ℕ) :
    X' b * f ∈ Low m I F (b + τ) := by
  induction hf using Submodule.span_induction with
  | mem g hg =>
    obtain ⟨k, hk, a, rfl, ha⟩ := hg
    apply Submodule.subset_span
    refine ⟨k, hk, b + a, X'_mul _ _ _, ?_⟩
    rw [add_assoc, map_add, map_add m.toSyn b τ]
    exact (add_lt_add_iff_left _).mpr ha
  | zero => simp
  | add x y _ _ hx hy => rw [mul_add]; exact Submodule.add_mem _ hx hy
  | smul c x _ hx => rw [mul_smul_comm]; exact Submodule.smul_mem _ _ hx

theorem rep_symm {ι : Type*} {I : Set ι} {F : ι → MvPolynomial (Fin n) K} {i j : ι} (h : Rep m I F i j) :
    Rep m I F j i := by
  unfold Rep at *
  rw [sup_comm, ← neg_sub]
  exact Submodule.neg_mem _ h

theorem rep_self {ι : Type*} {I : Set ι} {F : ι → MvPolynomial (Fin n) K} (i : ι) : Rep m I F i i := by
  unfold Rep
  rw [sub_self]
  exact Submodule.zero_mem _

theorem rep_mono {ι : Type*} {I J : Set ι} {F : ι → MvPolynomial (Fin n) K} {i j : ι} (hIJ : I ⊆ J)
    (h : Rep m I F i j) : Rep m J F i j := low_mono hIJ le_rfl h

/-- The difference of two multiples with the same leading monomial `τ` is represented below `τ`. -/
theorem rep_mul {ι : Type*} {I : Set ι} {F : ι → MvPolynomial (Fin n) K} {i j : ι} (h : Rep m I F i j)
    {a b τ : Fin n →₀ ℕ} (ha : a + m.degree (F i) = τ) (hb : b + m.degree (F j) = τ) :
    X' a * F i - X' b * F j ∈ Low m I F τ := by
  have hi : m.degree (F i) ≤ τ := ha ▸ le_add_self
  have hj : m.degree (F j) ≤ τ := hb ▸ le_add_self
  have hl : m.degree (F i) ⊔ m.degree (F j) ≤ τ := sup_le hi hj
  have := low_mul h (τ - (m.degree (F i) ⊔ m.degree (F j)))
  rw [tsub_add_cancel_of_le hl, mul_sub, X'_mul, X'_mul] at this
  have e1 : τ - (m.degree (F i) ⊔ m.degree (F j)) + ((m.degree (F i) ⊔ m.degree (F j)) - m.degree (F i)) = a := by
    rw [tsub_add_tsub_cancel hl le_sup_left, ← ha, add_tsub_cancel_right]
  have e2 : τ - (m.degree (F i) ⊔ m.degree (F j)) + ((m.degree (F i) ⊔ m.degree (F j)) - m.degree (F j)) = b := by
    rw [tsub_add_tsub_cancel hl le_sup_right, ← hb, add_tsub_cancel_right]
  rwa [e1, e2] at this

/-- Chain criterion. -/
theorem rep_chain {ι : Type*} {I : Set ι} {F : ι → MvPolynomial (Fin n) K} {i j k : ι}
    (hk : m.degree (F k) ≤ m.degree (F i) ⊔ m.degree (F j)) (h1 : Rep m I F i k) (h2 : Rep m I F k j) :
    Rep m I F i j := by
  unfold Rep
  set τ := m.degree (F i) ⊔ m.degree (F j) with hτ
  have hi : τ - m.degree (F i) + m.degree (F i) = τ := tsub_add_cancel_of_le le_sup_left
  have hj : τ - m.degree (F j) + m.degree (F j) = τ := tsub_add_cancel_of_le le_sup_right
  have hk' : τ - m.degree (F k) + m.degree (F k) = τ := tsub_add_cancel_of_le hk
  have := Submodule.add_mem _ (rep_mul h1 hi hk') (rep_mul h2 hk' hj)
  rwa [sub_add_sub_cancel] at this

theorem coeff_degree_of_monic {f : MvPolynomial (Fin n) K} (h : m.leadingCoeff f = 1) :
    f.coeff (m.degree f) = 1 := h

/-- A product is a combination of multiples of one factor by the monomials of the other. -/
theorem mul_mem_low {ι : Type*} {I : Set ι} {F : ι → MvPolynomial (Fin n) K} {k : ι} (hk : k ∈ I)
    (g : MvPolynomial (Fin n) K) {τ : Fin n →₀ ℕ}
    (hg : ∀ a ∈ g.support, m.toSyn (a + m.degree (F k)) < m.toSyn τ) : g * F k ∈ Low m I F τ := by
  rw [g.as_sum, Finset.sum_mul]
  apply Submodule.sum_mem
  intro a ha
  have : monomial a (coeff a g) * F k = coeff a g • (X' a * F k) := by
    rw [← smul_mul_assoc, smul_monomial, smul_eq_mul, mul_one]
  rw [this]
  exact Submodule.smul_mem _ _ (Submodule.subset_span ⟨k, hk, a, rfl, hg a ha⟩)

/-- Product criterion. -/
theorem rep_coprime {ι : Type*} {I : Set ι} {F : ι → MvPolynomial (Fin n) K} {i j : ι} (hi : i ∈ I) (hj : j ∈ I)
    (mi : m.leadingCoeff (F i) = 1) (mj : m.leadingCoeff (F j) = 1)
    (hc : m.degree (F i) ⊔ m.degree (F j) = m.degree (F i) + m.degree (F j)) : Rep m I F i j := by
  unfold Rep
  rw [hc, add_tsub_cancel_left, add_tsub_cancel_right]
  have key : ∀ f : MvPolynomial (Fin n) K, m.leadingCoeff f = 1 →
      ∀ a ∈ (f - X' (m.degree f)).support, m.toSyn a < m.toSyn (m.degree f) := by
    intro f hf a ha
    rw [mem_support_iff, coeff_sub, coeff_monomial] at ha
    by_cases he : m.degree f = a
    · subst he
      exact absurd (by rw [if_pos rfl]; exact sub_eq_zero.mpr hf) ha
    · rw [if_neg he, sub_zero] at ha
      refine lt_of_le_of_ne (m.le_degree (mem_support_iff.mpr ha)) ?_
      intro h
      exact he (m.toSyn.injective h).symm
  have h1 : (F j - X' (m.degree (F j))) * F i ∈ Low m I F (m.degree (F i) + m.degree (F j)) := by
    apply mul_mem_low hi
    intro a ha
    rw [map_add, map_add, add_comm]
    exact (add_lt_add_iff_left _).mpr (key _ mj a ha)
  have h2 : (F i - X' (m.degree (F i))) * F j ∈ Low m I F (m.degree (F i) + m.degree (F j)) := by
    apply mul_mem_low hj
    intro a ha
    rw [map_add, map_add]
    exact (add_lt_add_iff_right _).mpr (key _ mi a ha)
  have := Submodule.sub_mem _ h2 h1
  have e : (F i - X' (m.degree (F i))) * F j - (F j - X' (m.degree (F j))) * F i =
    X' (m.degree (F j)) * F i - X' (m.degree (F i)) * F j := by ring
  rwa [e] at this

/-- The degree of a monomial multiple. -/
theorem degree_mul' {f : MvPolynomial (Fin n) K} (hf : f ≠ 0) (a : Fin n →₀ ℕ) :
    m.degree (X' a * f) = a + m.degree f := by
  classical
  rw [m.degree_mul (by simp) hf, m.degree_monomial, if_neg one_ne_zero]

theorem coeff_mul_degree {f : MvPolynomial (Fin n) K} (a : Fin n →₀ ℕ) :
    (X' a * f).coeff (a + m.degree f) = m.leadingCoeff f := by
  rw [coeff_monomial_mul, one_mul]; rfl

theorem ne_zero_of_monic {f : MvPolynomial (Fin n) K} (h : m.leadingCoeff f = 1) : f ≠ 0 := by
  rintro rfl
  simp at h

/-- Elements represented below `τ` have no monomial `τ` or larger. -/
theorem low_coeff {ι : Type*} {I : Set ι} {F : ι → MvPolynomial (Fin n) K}
    (hm : ∀ i ∈ I, m.leadingCoeff (F i) = 1) {τ : Fin n →₀ ℕ}
    {f : MvPolynomial (Fin n) K} (hf : f ∈ Low m I F τ) {σ : Fin n →₀ ℕ} (hσ : m.toSyn τ ≤ m.toSyn σ) :
    f.coeff σ = 0 := by
  induction hf using Submodule.span_induction with
  | mem g hg =>
    obtain ⟨k, hk, a, rfl, ha⟩ := hg
    apply m.coeff_eq_zero_of_lt
    rw [degree_mul' (ne_zero_of_monic (hm k hk))]
    exact lt_of_lt_of_le ha hσ
  | zero => simp
  | add x y _ _ hx hy => rw [coeff_add, hx, hy, add_zero]
  | smul c x _ hx => rw [coeff_smul, hx, smul_zero]

/-- Same with leading monomials at most `τ`. -/
noncomputable def LowEq (m : MonomialOrder (Fin n)) {ι : Type*} (I : Set ι) (F : ι → MvPolynomial (Fin n) K) (τ : Fin n →₀ ℕ) :
    Submodule K (MvPolynomial (Fin n) K) :=
  Submodule.span K {g | ∃ k ∈ I, ∃ a, g = X' a * F k ∧ m.toSyn (a + m.degree (F k)) ≤ m.toSyn τ}

theorem lowEq_mono {ι : Type*} {I : Set ι} {F : ι → MvPolynomial (Fin n) K} {σ τ : Fin n →₀ ℕ}
    (h : m.toSyn σ ≤ m.toSyn τ) : LowEq m I F σ ≤ LowEq m I F τ := by
  apply Submodule.span_mono
  rintro g ⟨k, hk, a, rfl, ha⟩
  exact ⟨k, hk, a, rfl, ha.trans h⟩

/-- A non-zero element represented below `τ` is represented up to some smaller monomial. -/
theorem low_exists {ι : Type*} {I : Set ι} {F : ι → MvPolynomial (Fin n) K} {τ : Fin n →₀ ℕ}
    {f : MvPolynomial (Fin n) K} (hf : f ∈ Low m I F τ) :
    f = 0 ∨ ∃ σ, m.toSyn σ < m.toSyn τ ∧ f ∈ LowEq m I F σ := by
  induction hf using Submodule.span_induction with
  | mem g hg =>
    obtain ⟨k, hk, a, rfl, ha⟩ := hg
    exact Or.inr ⟨_, ha, Submodule.subset_span ⟨k, hk, a, rfl, le_rfl⟩⟩
  | zero => exact Or.inl rfl
  | add x y _ _ hx hy =>
    rcases hx with rfl | ⟨σ, h1, h2⟩
    · rwa [zero_add]
    · rcases hy with rfl | ⟨σ', h1', h2'⟩
      · rw [add_zero]; exact Or.inr ⟨σ, h1, h2⟩
      · rcases le_total (m.toSyn σ) (m.toSyn σ') with h | h
        · exact Or.inr ⟨σ', h1', Submodule.add_mem _ (lowEq_mono h h2) h2'⟩
        · exact Or.inr ⟨σ, h1, Submodule.add_mem _ h2 (lowEq_mono h h2')⟩
  | smul c x _ hx =>
    rcases hx with rfl | ⟨σ, h1, h2⟩
    · simp
    · exact Or.inr ⟨σ, h1, Submodule.smul_mem _ _ h2⟩

/-- If all S-polynomials are represented, an element represented up to `τ` without monomial `τ` is
represented below `τ`. -/
theorem lowEq_drop {ι : Type*} {I : Set ι} {F : ι → MvPolynomial (Fin n) K}
    (hm : ∀ i ∈ I, m.leadingCoeff (F i) = 1) (hrep : ∀ i ∈ I, ∀ j ∈ I, Rep m I F i j) {τ : Fin n →₀ ℕ}
    {f : MvPolynomial (Fin n) K} (hf : f ∈ LowEq m I F τ) (h0 : f.coeff τ = 0) : f ∈ Low m I F τ := by
  by_cases hex : ∃ k ∈ I, ∃ a, a + m.degree (F k) = τ
  · obtain ⟨k, hk, a, ha⟩ := hex
    have key : ∃ c : K, f - c • (X' a * F k) ∈ Low m I F τ := by
      clear h0
      induction hf using Submodule.span_induction with
      | mem g hg =>
        obtain ⟨l, hl, b, rfl, hb⟩ := hg
        rcases hb.lt_or_eq with hb | hb
        · exact ⟨0, by rw [zero_smul, sub_zero]; exact Submodule.subset_span ⟨l, hl, b, rfl, hb⟩⟩
        · exact ⟨1, by rw [one_smul]; exact rep_mul (hrep l hl k hk) (m.toSyn.injective hb) ha⟩
      | zero => exact ⟨0, by simp⟩
      | add x y _ _ hx hy =>
        obtain ⟨c, hc⟩ := hx
        obtain ⟨d, hd⟩ := hy
        refine ⟨c + d, ?_⟩
        have := Submodule.add_mem _ hc hd
        have e : x + y - (c + d) • (X' a * F k) = x - c • (X' a * F k) + (y - d • (X' a * F k)) := by
          rw [add_smul]; ring
        rwa [e]
      | smul c x _ hx =>
        obtain ⟨d, hd⟩ := hx
        refine ⟨c * d, ?_⟩
        have := Submodule.smul_mem _ c hd
        rwa [smul_sub, smul_smul] at this
    obtain ⟨c, hc⟩ := key
    have h1 := low_coeff hm hc (le_refl (m.toSyn τ))
    have h2 : (X' a * F k).coeff τ = 1 := by
      rw [← ha, coeff_mul_degree]; exact hm k hk
    rw [coeff_sub, h0, coeff_smul, h2, smul_eq_mul, mul_one, zero_sub, neg_eq_zero] at h1
    rwa [h1, zero_smul, sub_zero] at hc
  · have : LowEq m I F τ ≤ Low m I F τ := by
      apply Submodule.span_mono
      rintro g ⟨k, hk, a, rfl, ha⟩
      refine ⟨k, hk, a, rfl, lt_of_le_of_ne ha ?_⟩
      intro h
      exact hex ⟨k, hk, a, m.toSyn.injective h⟩
    exact this hf

/-- Every element of the ideal is represented up to some monomial. -/
theorem ideal_lowEq {ι : Type*} {I : Set ι} {F : ι → MvPolynomial (Fin n) K} {f : MvPolynomial (Fin n) K}
    (hf : f ∈ Ideal.span (F '' I)) : ∃ τ, f ∈ LowEq m I F τ := by
  have key : ∀ (s : Finset (Fin n →₀ ℕ)) (d : Fin n →₀ ℕ), ∃ τ, ∀ a ∈ s, m.toSyn (a + d) ≤ m.toSyn τ := by
    intro s d
    classical
    induction s using Finset.induction_on with
    | empty => exact ⟨0, by simp⟩
    | insert a s _ ih =>
      obtain ⟨τ, hτ⟩ := ih
      rcases le_total (m.toSyn (a + d)) (m.toSyn τ) with h | h
      · refine ⟨τ, ?_⟩
        intro b hb
        rcases Finset.mem_insert.mp hb with rfl | hb
        · exact h
        · exact hτ b hb
      · refine ⟨a + d, ?_⟩
        intro b hb
        rcases Finset.mem_insert.mp hb with rfl | hb
        · exact le_rfl
        · exact (hτ b hb).trans h
  induction hf using Submodule.span_induction with
  | mem g hg =>
    obtain ⟨k, hk, rfl⟩ := hg
    refine ⟨m.degree (F k), Submodule.subset_span ⟨k, hk, 0, ?_, by rw [zero_add]⟩⟩
    exact (one_mul _).symm
  | zero => exact ⟨0, Submodule.zero_mem _⟩
  | add x y _ _ hx hy =>
    obtain ⟨σ, hx⟩ := hx
    obtain ⟨τ, hy⟩ := hy
    rcases le_total (m.toSyn σ) (m.toSyn τ) with h | h
    · exact ⟨τ, Submodule.add_mem _ (lowEq_mono h hx) hy⟩
    · exact ⟨σ, Submodule.add_mem _ hx (lowEq_mono h hy)⟩
  | smul g x hxI hx =>
    clear hxI
    obtain ⟨σ, hx⟩ := hx
    obtain ⟨τ, hτ⟩ := key g.support σ
    refine ⟨τ, ?_⟩
    rw [smul_eq_mul, g.as_sum, Finset.sum_mul]
    apply Submodule.sum_mem
    intro a ha
    have e : monomial a (coeff a g) * x = coeff a g • (X' a * x) := by
      rw [← smul_mul_assoc, smul_monomial, smul_eq_mul, mul_one]
    rw [e]
    apply Submodule.smul_mem
    apply lowEq_mono (hτ a ha)
    clear e
    induction hx using Submodule.span_induction with
    | mem g hg =>
      obtain ⟨k, hk, b, rfl, hb⟩ := hg
      apply Submodule.subset_span
      refine ⟨k, hk, a + b, X'_mul _ _ _, ?_⟩
      rw [add_assoc, map_add, map_add m.toSyn a σ]
      exact (add_le_add_iff_left _).mpr hb
    | zero => simp
    | add x y _ _ hx hy => rw [mul_add]; exact Submodule.add_mem _ hx hy
    | smul c x _ hx => rw [mul_smul_comm]; exact Submodule.smul_mem _ _ hx

/-- Buchberger's criterion, with representations below the least common multiples. -/
theorem buchberger {ι : Type*} {I : Set ι} {F : ι → MvPolynomial (Fin n) K}
    (hm : ∀ i ∈ I, m.leadingCoeff (F i) = 1) (hrep : ∀ i ∈ I, ∀ j ∈ I, Rep m I F i j) :
    IsGroebner m (Ideal.span (F '' I)) (F '' I) := by
  refine ⟨fun g hg => Ideal.subset_span hg, ?_⟩
  intro f hf hf0
  obtain ⟨τ, hτ⟩ := ideal_lowEq (m := m) hf
  clear hf
  obtain ⟨t, ht⟩ : ∃ t, t = m.toSyn τ := ⟨_, rfl⟩
  induction t using WellFoundedLT.induction generalizing τ with
  | ind t ih =>
    subst ht
    by_cases h0 : f.coeff τ = 0
    · rcases low_exists (lowEq_drop hm hrep hτ h0) with h | ⟨σ, hσ, h⟩
      · exact absurd h hf0
      · exact ih _ hσ σ h rfl
    · have hdeg : m.degree f = τ := by
        apply m.toSyn.injective
        refine le_antisymm ?_ (m.le_degree (mem_support_iff.mpr h0))
        by_contra hlt
        push Not at hlt
        have : f.coeff (m.degree f) = 0 := by
          clear h0
          have hf' := hτ
          clear hτ ih
          generalize m.degree f = d at *
          clear hf0
          induction hf' using Submodule.span_induction with
          | mem g hg =>
            obtain ⟨k, hk, a, rfl, ha⟩ := hg
            apply m.coeff_eq_zero_of_lt
            rw [degree_mul' (ne_zero_of_monic (hm k hk))]
            exact lt_of_le_of_lt ha hlt
          | zero => simp
          | add x y _ _ hx hy => rw [coeff_add, hx, hy, add_zero]
          | smul c x _ hx => rw [coeff_smul, hx, smul_zero]
        exact hf0 (m.leadingCoeff_eq_zero_iff.mp this)
      by_contra hno
      apply h0
      have : LowEq m I F τ ≤ Low m I F τ := by
        apply Submodule.span_mono
        rintro g ⟨k, hk, a, rfl, ha⟩
        refine ⟨k, hk, a, rfl, lt_of_le_of_ne ha ?_⟩
        intro h
        apply hno
        refine ⟨F k, ⟨k, hk, rfl⟩, ne_zero_of_monic (hm k hk), ?_⟩
        rw [hdeg, ← m.toSyn.injective h]
        exact le_add_self
      exact low_coeff hm (this hτ) le_rfl

/-- Combinations of monic polynomials with pairwise distinct leading monomials only use those whose leading
monomial is not larger than that of the result. -/
theorem span_distinct {R : Set (MvPolynomial (Fin n) K)} (hm : ∀ r ∈ R, m.leadingCoeff r = 1)
    (hd : ∀ r ∈ R, ∀ s ∈ R, m.degree r = m.degree s → r = s) {d : MvPolynomial (Fin n) K}
    (h : d ∈ Submodule.span K R) :
    d ∈ Submodule.span K {r ∈ R | m.toSyn (m.degree r) ≤ m.toSyn (m.degree d)} := by
  obtain ⟨c, hc, rfl⟩ := Submodule.mem_span_set.mp h
  rw [Finsupp.sum]
  apply Submodule.sum_mem
  intro r hr
  apply Submodule.smul_mem
  apply Submodule.subset_span
  refine ⟨hc hr, ?_⟩
  obtain ⟨s, hs, hmax⟩ := c.support.exists_max_image (fun r => m.toSyn (m.degree r)) ⟨r, hr⟩
  refine (hmax r hr).trans ?_
  apply m.le_degree
  rw [mem_support_iff, coeff_sum, Finset.sum_eq_single s]
  · rw [coeff_smul, show coeff (m.degree s) s = 1 from hm s (hc hs), smul_eq_mul, mul_one]
    exact Finsupp.mem_support_iff.mp hs
  · intro t ht hts
    rw [coeff_smul, m.coeff_eq_zero_of_lt, smul_zero]
    refine lt_of_le_of_ne (hmax t ht) ?_
    intro he
    exact hts (hd t (hc ht) s (hc hs) (m.toSyn.injective he))
  · intro h
    exact absurd hs h

end Verif.Groebner
