import Mathlib.Algebra.BigOperators.Fin

/-! Specification only: textbook monomial orders, independent of the code. -/

namespace Verif.Spec

open Finset

variable {n : Nat}

/-- Degree reverse lexicographic comparison `u < v` restricted to the variables in `S`. -/
def DrlOn (S : Finset (Fin n)) (u v : Fin n → ℕ) : Prop :=
  ∑ i ∈ S, u i < ∑ i ∈ S, v i ∨
    (∑ i ∈ S, u i = ∑ i ∈ S, v i ∧ ∃ i ∈ S, v i < u i ∧ ∀ j ∈ S, i < j → u j = v j)

/-- `u < v` in the degree reverse lexicographic order. -/
def Drl (u v : Fin n → ℕ) : Prop := DrlOn Finset.univ u v

/-- `u < v` in the elimination order with first block the variables of index `< k`, both blocks
ordered by DRL. -/
def Be (k : Nat) (u v : Fin n → ℕ) : Prop :=
  DrlOn (univ.filter (fun i : Fin n => i.val < k)) u v ∨
    ((∀ i : Fin n, i.val < k → u i = v i) ∧ DrlOn (univ.filter (fun i : Fin n => k ≤ i.val)) u v)

/-- `u < v` lexicographically. -/
def Lex (u v : Fin n → ℕ) : Prop := ∃ i, u i < v i ∧ ∀ j < i, u j = v j

/-- Admissible monomial orders on exponent vectors. -/
structure Admissible (lt : (Fin n → ℕ) → (Fin n → ℕ) → Prop) : Prop where
  irrefl : ∀ u, ¬ lt u u
  trans : ∀ u v w, lt u v → lt v w → lt u w
  total : ∀ u v, lt u v ∨ u = v ∨ lt v u
  mul : ∀ u v w, lt u v → lt (u + w) (v + w)
  one_lt : ∀ u, u ≠ 0 → lt 0 u
  wf : WellFounded lt

end Verif.Spec
