import Mathlib.RingTheory.MvPolynomial.Groebner
import Verif.Groebner

/-! Facts about Gröbner bases in the sense of `Spec.Groebner`: they generate the ideal, and the reduced one
is unique. -/

namespace Verif.Groebner

open MvPolynomial Verif.Spec

variable {n : Nat} {K : Type*} [Field K] {m : MonomialOrder (Fin n)}

theorem groebner_span {I : Ideal (MvPolynomial (Fin n) K)} {G : Set (MvPolynomial (Fin n) K)}
    (h : IsGroebner m I G) : Ideal.span G = I := by
  apply le_antisymm
  · exact Ideal.span_le.mpr h.1
  · intro f hf
    obtain ⟨g, r, hfr, _, hr⟩ := m.div_set (B := { g ∈ G | g ≠ 0 })
      (fun b hb => by simpa using hb.2) f
    have hsum : Finsupp.linearCombination (MvPolynomial (Fin n) K) (fun b : { g ∈ G | g ≠ 0 } => (b : MvPolynomial (Fin n) K)) g ∈
        Ideal.span G := by
      rw [Finsupp.linearCombination_apply, Finsupp.sum]
      apply Ideal.sum_mem
      intro b _
      exact Ideal.mul_mem_left _ _ (Ideal.subset_span b.2.1)
    have hr0 : r = 0 := by
      by_contra hne
      have hrI : r ∈ I := by
        have : r = f - Finsupp.linearCombination (MvPolynomial (Fin n) K)
            (fun b : { g ∈ G | g ≠ 0 } => (b : MvPolynomial (Fin n) K)) g := by
          rw [hfr]; ring
        rw [this]
        exact Ideal.sub_mem _ hf (Ideal.span_le.mpr h.1 hsum)
      obtain ⟨b, hb, hb0, hle⟩ := h.2 r hrI hne
      exact hr (m.degree r) (m.degree_mem_support hne) b ⟨hb, hb0⟩ hle
    rw [hfr, hr0, add_zero]
    exact hsum

theorem IsReducedGroebner.ne_zero {I : Ideal (MvPolynomial (Fin n) K)} {G : Set (MvPolynomial (Fin n) K)}
    (h : IsReducedGroebner m I G) {g : MvPolynomial (Fin n) K} (hg : g ∈ G) : g ≠ 0 :=
  ne_zero_of_monic (m := m) (h.2.1 g hg)

theorem reduced_no_term {I : Ideal (MvPolynomial (Fin n) K)} {G : Set (MvPolynomial (Fin n) K)}
    (h : IsReducedGroebner m I G) {g : MvPolynomial (Fin n) K} (hg : g ∈ G) {d : Fin n →₀ ℕ} (hd : d ∈ g.support)
    (hne : d ≠ m.degree g) {b : MvPolynomial (Fin n) K} (hb : b ∈ G) : ¬ m.degree b ≤ d := by
  intro hle
  by_cases he : b = g
  · subst he
    apply hne
    apply m.toSyn.injective
    exact le_antisymm (m.le_degree hd) (m.toSyn_monotone hle)
  · exact h.2.2 g hg b hb (Ne.symm he) d hd hle

theorem reduced_subset {I : Ideal (MvPolynomial (Fin n) K)} {G G' : Set (MvPolynomial (Fin n) K)}
    (h : IsReducedGroebner m I G) (h' : IsReducedGroebner m I G') : G ⊆ G' := by
  intro g hg
  obtain ⟨g', hg', _, hle⟩ := h'.1.2 g (h.1.1 g hg) (IsReducedGroebner.ne_zero h hg)
  obtain ⟨g'', hg'', _, hle'⟩ := h.1.2 g' (h'.1.1 g' hg') (IsReducedGroebner.ne_zero h' hg')
  have hgg : g'' = g := by
    by_contra hne
    exact h.2.2 g hg g'' hg'' (Ne.symm hne) _ (m.degree_mem_support (IsReducedGroebner.ne_zero h hg)) (hle'.trans hle)
  subst hgg
  have hdeg : m.degree g' = m.degree g'' := le_antisymm hle hle'
  have hzero : g'' - g' = 0 := by
    by_contra hne
    have hI : g'' - g' ∈ I := Ideal.sub_mem _ (h.1.1 _ hg) (h'.1.1 _ hg')
    have hsup := m.degree_mem_support hne
    set d := m.degree (g'' - g') with hd
    have hdne : d ≠ m.degree g'' := by
      intro he
      rw [mem_support_iff, he, coeff_sub] at hsup
      have e1 := coeff_degree_of_monic (m := m) (h.2.1 g'' hg)
      have e2 := coeff_degree_of_monic (m := m) (h'.2.1 g' hg')
      rw [hdeg] at e2
      rw [e1, e2, sub_self] at hsup
      exact hsup rfl
    have : d ∈ g''.support ∨ d ∈ g'.support := by
      by_contra hno
      push Not at hno
      rw [mem_support_iff, coeff_sub, notMem_support_iff.mp hno.1, notMem_support_iff.mp hno.2, sub_self] at hsup
      exact hsup rfl
    rcases this with h1 | h1
    · obtain ⟨b, hb, _, hbd⟩ := h.1.2 _ hI hne
      exact reduced_no_term h hg h1 hdne hb hbd
    · obtain ⟨b, hb, _, hbd⟩ := h'.1.2 _ hI hne
      exact reduced_no_term h' hg' h1 (by rw [hdeg]; exact hdne) hb hbd
  rw [sub_eq_zero.mp hzero]
  exact hg'

/-- The reduced Gröbner basis is determined by the ideal and the order. -/
theorem reduced_unique {I : Ideal (MvPolynomial (Fin n) K)} {G G' : Set (MvPolynomial (Fin n) K)}
    (h : IsReducedGroebner m I G) (h' : IsReducedGroebner m I G') : G = G' :=
  (reduced_subset h h').antisymm (reduced_subset h' h)

end Verif.Groebner
