import Verif.LiftStore

/-!
The subspace of the quotient in which `msolve -C` computes: the truncated staircase.
Source: src/msolve/hilbert.c 150-160, 314-486, src/msolve/msolve.c 3896-3921.
-/
namespace Verif.Colon
open Verif.Hilbert Verif.LiftStore Verif.Spec

variable {n : ℕ}

/-- The bound of the degree, msolve.c 3896-3904: `nf` is the degree of the normal form of the last polynomial. -/
def maxDeg (nf : ℕ) (lms : List (Fin n → ℕ)) : ℕ := lms.foldl (fun d l => max d ((List.finRange n).foldl (fun s i => s + l i) 0)) nf

/-- `is_divisible_exp(nvars-1, ...)`, hilbert.c 111-118 called at 155: the loop stops before the last variable. -/
def divWithoutLast (e1 e2 : Fin n → ℕ) : Bool := ((List.finRange n).take (n - 1)).all fun i => !decide (e2 i > e1 i)

/-- `is_divisible_lexp_without_last_variable`, hilbert.c 150-160. -/
def lexpWithoutLast (lms : List (Fin n → ℕ)) (e1 : Fin n → ℕ) : Bool := lms.any fun e2 => divWithoutLast e1 e2

/-- What the two functions do: return `NULL`, end the program with the message that the vector space is too small, write outside an array or run on, or return rows. -/
inductive Out (n : ℕ) where
  | null
  | exit
  | bad
  | rows (L : List (Fin n → ℕ))

/-- The loop that both functions have, hilbert.c 345-384 and 425-464; it is the one of `monomial_basis_enlarged`. -/
def stair (lms : List (Fin n → ℕ)) (maxdeg : ℕ) : Hilbert.Out n := enlargedLoop lms maxdeg (maxdeg + 1) 1 (fun _ => 0) [fun _ => 0]

/-- `monomial_basis_colon`, hilbert.c 314-388. -/
def colon (lms : List (Fin n → ℕ)) (maxdeg : ℕ) : Out n :=
  if isDivisibleLexp lms (fun _ => 0) then .null
  else match stair lms maxdeg with
    | .done L => .rows L
    | _ => .bad

/-- Rows are moved to the front in place, hilbert.c 468-478: `cnt` turns are left, `i` is the row that is looked at, `c` the number of rows that were kept. -/
def compact (keep : (Fin n → ℕ) → Bool) : ℕ → ℕ → ℕ → (ℕ → Fin n → ℕ) → ℕ × (ℕ → Fin n → ℕ)
  | 0, _, c, a => (c, a)
  | cnt + 1, i, c, a =>
    if keep (a i) then compact keep cnt (i + 1) (c + 1) (Function.update a c (a i))
    else compact keep cnt (i + 1) c a

/-- `monomial_basis_colon_no_zero`, hilbert.c 395-486. -/
def noZero (lms : List (Fin n → ℕ)) (maxdeg : ℕ) : Out n :=
  if isDivisibleLexp lms (fun _ => 0) then .null
  else match stair lms maxdeg with
    | .done L =>
      let r := compact (lexpWithoutLast lms) L.length 0 0 (fun i => L.getD i 0)
      if r.1 = 0 then .exit else .rows ((List.range r.1).map r.2)
    | _ => .bad

/-! ### Lemmas -/

theorem compact_spec (keep : (Fin n → ℕ) → Bool) : ∀ (cnt i c : ℕ) (a : ℕ → Fin n → ℕ), c ≤ i →
    (List.range (compact keep cnt i c a).1).map (compact keep cnt i c a).2 =
      (List.range c).map a ++ ((List.range' i cnt).map a).filter keep := by
  intro cnt
  induction cnt with
  | zero =>
    intro i c a _
    simp [compact]
  | succ cnt ih =>
    intro i c a h
    rw [compact, List.range'_succ, List.map_cons]
    by_cases hk : keep (a i) = true
    · rw [if_pos hk, ih _ _ _ (by omega), List.filter_cons_of_pos hk, List.range_succ, List.map_append, List.append_assoc]
      have h1 : (List.range c).map (Function.update a c (a i)) = (List.range c).map a := by
        apply List.map_congr_left
        intro j hj
        have := List.mem_range.mp hj
        rw [Function.update_of_ne (by omega)]
      have h2 : (List.range' (i + 1) cnt).map (Function.update a c (a i)) = (List.range' (i + 1) cnt).map a := by
        apply List.map_congr_left
        intro j hj
        have := (List.mem_range'_1.mp hj).1
        rw [Function.update_of_ne (by omega)]
      rw [h1, h2]
      simp
    · rw [if_neg hk, ih _ _ _ (by omega), List.filter_cons_of_neg hk]

theorem stair_spec (hn : 1 ≤ n) {lms : List (Fin n → ℕ)} (h : Irred lms (fun _ => 0)) (D : ℕ) :
    ∃ L, stair lms D = .done L ∧ L.Pairwise Drl ∧ ∀ m, m ∈ L ↔ Irred lms m ∧ ∑ i, m i ≤ D :=
  enlargedLoop_spec hn lms _ _ 0 _ _ (inv_init lms h) (Nat.zero_le _) (by omega) (Or.inl ⟨rfl, rfl, fun _ => rfl⟩)

theorem lexpWithoutLast_iff (lms : List (Fin n → ℕ)) (m : Fin n → ℕ) :
    lexpWithoutLast lms m = true ↔ ∃ l ∈ lms, ∀ i : Fin n, i.val + 1 < n → l i ≤ m i := by
  unfold lexpWithoutLast divWithoutLast
  rw [List.any_eq_true]
  refine exists_congr fun l => and_congr_right' ?_
  rw [List.all_eq_true]
  constructor
  · intro h i hi
    have : i ∈ (List.finRange n).take (n - 1) := by
      rw [List.mem_take_iff_getElem]
      exact ⟨i.val, by simp; omega, by simp⟩
    simpa using h i this
  · intro h i hi
    rw [List.mem_take_iff_getElem] at hi
    obtain ⟨j, hj, rfl⟩ := hi
    have := h ((List.finRange n)[j]'(by omega)) (by simp at hj ⊢; omega)
    simpa using this

theorem noZero_spec (hn : 1 ≤ n) {lms : List (Fin n → ℕ)} (h : Irred lms (fun _ => 0)) (D : ℕ) :
    ∃ L, L.Pairwise Drl ∧ (∀ m, m ∈ L ↔ Irred lms m ∧ ∑ i, m i ≤ D) ∧ stair lms D = .done L ∧
      noZero lms D = if L.filter (lexpWithoutLast lms) = [] then .exit else .rows (L.filter (lexpWithoutLast lms)) := by
  obtain ⟨L, h1, h2, h3⟩ := stair_spec hn h D
  refine ⟨L, h2, h3, h1, ?_⟩
  unfold noZero
  rw [(isDivisibleLexp_iff _ _).mpr h, h1]
  simp only [Bool.false_eq_true, if_false]
  have hs := compact_spec (lexpWithoutLast lms) L.length 0 0 (fun i => L.getD i 0) le_rfl
  have hL : (List.range' 0 L.length).map (fun i => L.getD i 0) = L := by
    apply List.ext_getElem
    · simp
    · intro i h1 h2
      simp [List.getD_eq_getElem?_getD, h2]
  rw [hL, List.range_zero, List.map_nil, List.nil_append] at hs
  rw [← hs]
  simp

end Verif.Colon
