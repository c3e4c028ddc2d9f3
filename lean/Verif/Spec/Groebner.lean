import Mathlib.RingTheory.MvPolynomial.MonomialOrder
import Verif.Spec.Monomial

/-! Specification only: Gröbner bases of ideals of polynomial rings over a field, independent of the code.
Monomial orders are Mathlib's; an admissible order on exponent vectors gives one. -/

namespace Verif.Spec

open MvPolynomial

variable {n : Nat}

/-- Exponent vectors, carrying the order `lt`. -/
def Syn (_lt : (Fin n → ℕ) → (Fin n → ℕ) → Prop) : Type := Fin n →₀ ℕ

noncomputable instance (lt : (Fin n → ℕ) → (Fin n → ℕ) → Prop) : AddCommMonoid (Syn lt) :=
  inferInstanceAs (AddCommMonoid (Fin n →₀ ℕ))

/-- The linear order on exponent vectors given by an admissible order. -/
@[reducible] noncomputable def synOrder {lt : (Fin n → ℕ) → (Fin n → ℕ) → Prop} (h : Admissible lt) :
    LinearOrder (Syn lt) where
  le a b := a = b ∨ lt (show Fin n →₀ ℕ from a) (show Fin n →₀ ℕ from b)
  lt a b := lt (show Fin n →₀ ℕ from a) (show Fin n →₀ ℕ from b)
  le_refl a := Or.inl rfl
  le_trans a b c hab hbc := by
    rcases hab with rfl | hab
    · exact hbc
    · rcases hbc with rfl | hbc
      · exact Or.inr hab
      · exact Or.inr (h.trans _ _ _ hab hbc)
  lt_iff_le_not_ge a b := by
    constructor
    · intro hab
      refine ⟨Or.inr hab, ?_⟩
      rintro (rfl | hba)
      · exact h.irrefl _ hab
      · exact h.irrefl _ (h.trans _ _ _ hab hba)
    · rintro ⟨rfl | hab, hn⟩
      · exact absurd (Or.inl rfl) hn
      · exact hab
  le_antisymm a b hab hba := by
    rcases hab with rfl | hab
    · rfl
    · rcases hba with rfl | hba
      · rfl
      · exact absurd (h.trans _ _ _ hab hba) (h.irrefl _)
  le_total a b := by
    rcases h.total (show Fin n →₀ ℕ from a) (show Fin n →₀ ℕ from b) with hab | hab | hab
    · exact Or.inl (Or.inr hab)
    · exact Or.inl (Or.inl (DFunLike.coe_injective (F := Fin n →₀ ℕ) hab))
    · exact Or.inr (Or.inr hab)
  toDecidableLE := Classical.decRel _

/-- Mathlib's monomial order for an admissible order on exponent vectors. -/
noncomputable def mo {lt : (Fin n → ℕ) → (Fin n → ℕ) → Prop} (h : Admissible lt) : MonomialOrder (Fin n) where
  syn := Syn lt
  addCommMonoidSyn := inferInstance
  linearOrderSyn := synOrder h
  isOrderedAddMonoid_syn :=
    letI := synOrder h
    { add_le_add_left := by
        rintro a b (rfl | hab) c
        · exact Or.inl rfl
        · exact Or.inr (h.mul _ _ _ hab) }
  toSyn := AddEquiv.refl _
  toSyn_monotone := by
    let := synOrder h
    intro a b hab
    by_cases he : a = b
    · exact Or.inl he
    · refine Or.inr ?_
      obtain ⟨c, rfl⟩ := exists_add_of_le hab
      have hc : (c : Fin n → ℕ) ≠ 0 := by
        intro hc
        apply he
        have : c = 0 := DFunLike.coe_injective hc
        simp [this]
      have := h.mul 0 c a (h.one_lt c hc)
      rw [zero_add, add_comm] at this
      exact this
  wellFoundedLT_syn :=
    letI := synOrder h
    ⟨InvImage.wf (fun a : Syn lt => (⇑(show Fin n →₀ ℕ from a) : Fin n → ℕ)) h.wf⟩

variable {K : Type*} [Field K]

/-- `G` is a Gröbner basis of the ideal `I` for the monomial order `m`: it lies in `I` and the leading
monomial of every non-zero element of `I` is divisible by the leading monomial of a non-zero element of
`G`. -/
def IsGroebner (m : MonomialOrder (Fin n)) (I : Ideal (MvPolynomial (Fin n) K))
    (G : Set (MvPolynomial (Fin n) K)) : Prop :=
  (∀ g ∈ G, g ∈ I) ∧ ∀ f ∈ I, f ≠ 0 → ∃ g ∈ G, g ≠ 0 ∧ m.degree g ≤ m.degree f

/-- `G` is the reduced Gröbner basis of `I`: a Gröbner basis of monic polynomials, no monomial of one
being divisible by the leading monomial of another. -/
def IsReducedGroebner (m : MonomialOrder (Fin n)) (I : Ideal (MvPolynomial (Fin n) K))
    (G : Set (MvPolynomial (Fin n) K)) : Prop :=
  IsGroebner m I G ∧ (∀ g ∈ G, m.leadingCoeff g = 1) ∧
    ∀ g ∈ G, ∀ g' ∈ G, g ≠ g' → ∀ u ∈ g.support, ¬ m.degree g' ≤ u

end Verif.Spec
