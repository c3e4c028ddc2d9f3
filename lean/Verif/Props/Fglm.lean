import Verif.BMSeq
import Mathlib.Tactic.NormNum
import Mathlib.Tactic.IntervalCases
import Mathlib.Data.Rat.Defs

/-! C25: the minimal polynomial from the scalar sequence. -/

namespace Verif.Props

open Polynomial Verif.Spec Verif.BM

/-- C25: for every sequence the routine ends with a Bezout relation `U x^n + V S = R` for the points, with
coprime `U`, `V`, `V` not zero of at most half the degree and `R` of less than half the degree. -/
theorem C25_invariant {K : Type*} [Field K] {hg : K[X] → K[X] → HM K} (hhg : HgcdOk hg) (pts : List K) :
    let s := emgcd hg St.init 0 pts
    s.V1 ≠ 0 ∧ 2 * s.V1.natDegree ≤ pts.length ∧ (s.R1 = 0 ∨ 2 * s.R1.natDegree < pts.length) ∧
    ∃ U : K[X], IsCoprime U s.V1 ∧
      U * X ^ pts.length + s.V1 * (∑ i ∈ Finset.range pts.length, C (pts.getD i 0) * X ^ (pts.length - 1 - i)) = s.R1 := by
  intro s
  have h : Fin pts.length (rev pts) s := emgcd_fin hhg pts
  have hV := h.degV
  rw [dg_of_ne h.v1] at hV
  refine ⟨h.v1, by omega, ?_, ?_⟩
  · by_cases hz : s.R1 = 0
    · exact Or.inl hz
    · have hR := h.degR
      rw [dg_of_ne hz] at hR
      exact Or.inr (by omega)
  · obtain ⟨U0, U1, e, he, _, e1, ed⟩ := h.bez
    refine ⟨U1, ⟨-(e * s.V0), e * U0, by linear_combination e * ed + he⟩, ?_⟩
    rw [← e1, rev]
    congr 2
    refine Finset.sum_congr rfl fun i _ => ?_
    rw [Nat.sub_right_comm]

/-- C25: if the points are the beginning of a sequence that satisfies some linear recurrence of order at
most `D`, then `2 D` points are enough: `compute_elim_poly` returns the minimal polynomial. -/
theorem C25_minpoly {K : Type*} [Field K] {hg : K[X] → K[X] → HM K} (hhg : HgcdOk hg) (a : ℕ → K) (D : ℕ)
    (hrec : ∃ f : K[X], f ≠ 0 ∧ f.natDegree ≤ D ∧ Annihilates f a) (pts : List K) (hlen : 2 * D ≤ pts.length)
    (hpts : ∀ i, i < 2 * D → pts.getD i 0 = a i) :
    IsMinPoly (elimPoly hg pts D) a ∧ (elimPoly hg pts D).natDegree ≤ D :=
  elimPoly_min hhg hlen hpts hrec

/-- The minimal polynomial is unique, so the previous theorem determines the result. -/
theorem C25_unique {K : Type*} [Field K] {f g : K[X]} {a : ℕ → K} (hf : IsMinPoly f a) (hg : IsMinPoly g a) : f = g :=
  eq_of_monic_of_associated hf.1 hg.1 (associated_of_dvd_dvd (hf.2.2 g hg.2.1) (hg.2.2 f hf.2.1))

/-- C25: for a sequence that is not zero the polynomial kept by `compute_minpoly` is the minimal polynomial, for
the zero sequence it is `x` (which still annihilates the sequence). -/
theorem C25_compute_minpoly {K : Type*} [Field K] {hg : K[X] → K[X] → HM K} (hhg : HgcdOk hg) (a : ℕ → K) (D : ℕ)
    (hrec : ∃ f : K[X], f ≠ 0 ∧ f.natDegree ≤ D ∧ Annihilates f a) (pts : List K) (hlen : 2 * D ≤ pts.length)
    (hpts : ∀ i, i < 2 * D → pts.getD i 0 = a i) :
    (a ≠ 0 → IsMinPoly (minPoly hg pts D) a) ∧ (a = 0 → minPoly hg pts D = X) := by
  obtain ⟨h, _⟩ := elimPoly_min hhg hlen hpts hrec
  unfold minPoly
  simp only
  constructor
  · intro ha
    rw [if_neg]
    · exact h
    · intro hd
      apply ha
      have h1 := h.1.natDegree_eq_zero.mp hd
      have h2 := (annihilates_iff _ _).mp h.2.1
      rw [h1] at h2
      rw [← h2, act, map_one]
      rfl
  · intro ha
    rw [if_pos]
    have h1 : (1 : K[X]) ≠ 0 := one_ne_zero
    have h2 : Annihilates (1 : K[X]) a := by
      rw [annihilates_iff, ha, map_zero]
    exact Nat.le_zero.mp ((natDegree_le_of_dvd (h.2.2 1 h2) h1).trans (by simp))

/-- C25: the eliminating polynomial is the square-free part of the minimal polynomial: square-free with the
same roots in every extension field. -/
theorem C25_squarefree {K : Type*} [Field K] {V : K[X]} (hV : V.Monic) {l : List (K[X] × ℕ)} (hl : SqfOk V l) (D : ℕ) :
    Squarefree (sqfPart V D l) ∧ (sqfPart V D l).Monic ∧ sqfPart V D l ∣ V ∧
    ∀ (L : Type) [Field L] [Algebra K L] (x : L), aeval x (sqfPart V D l) = 0 ↔ aeval x V = 0 := by
  obtain ⟨h1, h2, h3, N, h4⟩ := sqfPart_spec hV hl D
  refine ⟨h2, h1, h3, fun L _ _ x => ⟨fun h => ?_, fun h => ?_⟩⟩
  · obtain ⟨q, hq⟩ := h3
    rw [hq, map_mul, h, zero_mul]
  · obtain ⟨q, hq⟩ := h4
    have h5 := congrArg (aeval x) hq
    rw [map_pow, map_mul, h, zero_mul] at h5
    exact eq_zero_of_pow_eq_zero h5

/-! Concrete cases. -/

/-- Fibonacci numbers. -/
def fibQ : ℕ → ℚ
  | 0 => 0
  | 1 => 1
  | n + 2 => fibQ n + fibQ (n + 1)

theorem fibQ_rec : Annihilates (X ^ 2 - X - 1 : ℚ[X]) fibQ := by
  have hd : (X ^ 2 - X - 1 : ℚ[X]).natDegree = 2 := by compute_degree!
  intro i
  rw [hd]
  simp [Finset.sum_range_succ, coeff_X, coeff_one, fibQ]
  ring

/-- `0, 1, 1, 2` meets the hypotheses of `C25_minpoly`, and the result is `x^2 - x - 1`. -/
example (hg : ℚ[X] → ℚ[X] → HM ℚ) (hhg : HgcdOk hg) :
    IsMinPoly (elimPoly hg [0, 1, 1, 2] 2) fibQ := by
  have hd : (X ^ 2 - X - 1 : ℚ[X]).natDegree = 2 := by compute_degree!
  refine (C25_minpoly hhg fibQ 2 ⟨X ^ 2 - X - 1, ?_, hd.le, fibQ_rec⟩ _ (by simp) ?_).1
  · intro h
    rw [h] at hd
    simp at hd
  · intro i hi
    interval_cases i <;> norm_num [fibQ]

example : ∃ hg : ℚ[X] → ℚ[X] → HM ℚ, HgcdOk hg := hgcd_exists

/-- `(x - 1)^2 x` and its square-free factorisation. -/
example : SqfOk ((X - 1) ^ 2 * X : ℚ[X]) [(X, 1), (X - C 1, 2)] where
  prod := by simp; ring
  pos := by simp
  monic := by
    intro q hq
    simp only [List.mem_cons, List.not_mem_nil, or_false] at hq
    rcases hq with rfl | rfl
    · exact monic_X
    · exact monic_X_sub_C 1
  sqf := by
    intro q hq
    simp only [List.mem_cons, List.not_mem_nil, or_false] at hq
    rcases hq with rfl | rfl
    · exact irreducible_X.squarefree
    · exact (irreducible_X_sub_C 1).squarefree
  coprime := by
    simp only [List.pairwise_cons, List.mem_singleton, forall_eq, List.not_mem_nil, false_imp_iff, implies_true,
      List.Pairwise.nil, and_true]
    exact ⟨1, -1, by simp⟩

end Verif.Props
