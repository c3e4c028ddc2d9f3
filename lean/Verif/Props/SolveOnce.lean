import Verif.Props.SolveQAttempt

/-! C78, C80: when a computation is repeated with a random linear form. -/
namespace Verif.Props
namespace SolveOnce

open Verif.F4 Verif.Pairs Verif.Spec Verif.MulMatrix Verif.Fglm Verif.BM Verif.Hankel Verif.LinForms Verif.SolveQ Verif.Solve
open Verif.VarOrder (Gens Result)
open Polynomial

variable {n : ℕ}

/-- Only missing squares lead to the return value 2. -/
theorem fglm_generic {K : Type*} [Field K] {nlins : ℕ} {linvars : ℕ → ℕ} {lineqs : ℕ → K} {squ : ℕ → ℕ} {res resSq : ℕ → ℕ → K} {inv : Hankel.Inv K}
    {V elim : K[X]} {xg : K[X] → K[X] → K[X] × K[X] × K[X]} {lam : ℕ → K} {nv dquot : ℕ} {chk : Bool}
    (h : fglm nlins linvars lineqs squ res resSq inv V elim xg lam nv dquot chk = some .generic) :
    chk = true ∧ elim.natDegree ≠ dquot ∧ ∃ i, i < nv - 1 ∧ squ i = 0 := by
  unfold fglm at h
  simp only at h
  split_ifs at h with h1
  · obtain ⟨r, -, hr⟩ := Option.map_eq_some_iff.mp h
    exact absurd hr (by simp)
  · split at h
    · exact absurd h (by simp)
    · split_ifs at h with h2 h3 h4
      all_goals first
        | exact ⟨(‹_ ∧ chk = true ∧ _›).2.1, h1, (‹_ ∧ chk = true ∧ _›).2.2⟩
        | exact absurd h (by simp)

/-- The square of a variable in the monomial basis is found. -/
theorem squVars_ne {lmb : List (Mon n)} (h0 : ∀ m ∈ lmb.head?, m = 0) {i : Fin n} (hi : i.val < n - 1) (hmem : Pi.single i 2 ∈ lmb) : squVars lmb i ≠ 0 := by
  have hz : lmb.getD 0 0 = 0 := by
    cases lmb with
    | nil => rfl
    | cons m l => exact h0 m rfl
  have hstep0 : ∀ s, squStep lmb s 0 = s := by
    intro s
    unfold squStep
    rw [if_neg (by rw [hz]; simp)]
  have hkeep : ∀ k s, 0 < k → s i.val ≠ 0 → squStep lmb s k i.val ≠ 0 := by
    intro k s hk hs
    unfold squStep
    split_ifs
    · generalize (List.range (n - 1)).find? _ = o
      cases o with
      | none => exact hs
      | some j =>
        by_cases hj : i.val = j
        · simp only [hj, Function.update_self]; omega
        · simp only [Function.update_of_ne hj]; exact hs
    · exact hs
  have hset : ∀ k s, 0 < k → lmb.getD k 0 = Pi.single i 2 → squStep lmb s k i.val ≠ 0 := by
    intro k s hk hs
    unfold squStep
    rw [hs, if_pos (by simp)]
    have hf : (List.range (n - 1)).find? (fun j => decide (Orders.ext (Pi.single i 2 : Mon n) j = 2)) = some i.val := by
      rw [List.find?_range_eq_some]
      refine ⟨by simp [Orders.ext], by simpa using hi, ?_⟩
      intro j hj
      have hjn : j < n := by omega
      have : (⟨j, hjn⟩ : Fin n) ≠ i := fun h => by rw [← h] at hj; simp at hj
      simp [Orders.ext, hjn, Pi.single_eq_of_ne this]
    rw [hf]
    simp only [Function.update_self]
    omega
  obtain ⟨k, hk, hkm⟩ := List.mem_iff_getElem.mp hmem
  have hkm' : lmb.getD k 0 = Pi.single i 2 := by simp [List.getD_eq_getElem?_getD, hk, hkm]
  have hk0 : 0 < k := by
    rcases Nat.eq_zero_or_pos k with rfl | h
    · rw [hz] at hkm'
      have := congrFun hkm' i
      simp at this
    · exact h
  unfold squVars
  have key : ∀ N, k < N → (List.range N).foldl (squStep lmb) (fun _ => 0) i.val ≠ 0 := by
    intro N
    induction N with
    | zero => omega
    | succ N ih =>
      intro hN
      rw [List.range_succ, List.foldl_append, List.foldl_cons, List.foldl_nil]
      rcases Nat.lt_or_eq_of_le (Nat.lt_succ_iff.mp hN) with h | rfl
      · exact hkeep N _ (by omega) (ih h)
      · exact hset k _ hk0 hkm'
  exact key _ hk

/-- **C78**: a computation modulo `p` ends with the return value 2 (the random linear form) only if squares are tested and the square of a variable other than the last one is
divisible by a leading monomial of the basis. -/
theorem C78_squares {p : ℕ} [Fact p.Prime] {us : ℤ} {chk : Bool} {G : List (Poly n)} (h : Outcome p us chk G .generic) :
    chk = true ∧ ∃ i : Fin n, i.val < n - 1 ∧ ∃ g ∈ G, F4.lead g ≤ Pi.single i 2 := by
  unfold Outcome at h
  split_ifs at h with h1
  obtain ⟨fuel, lmb, nf, last, hb, -, hl, ⟨-, h⟩ | ⟨M, -, -, -, ev0, vecinit, vvec, hg, sqf, xg, lam, -, -, -, -, h⟩⟩ := h
  · exact absurd h (by simp)
  obtain ⟨h2, -, i, hi, hsq⟩ := fglm_generic h
  refine ⟨h2, ⟨i, by omega⟩, hi, ?_⟩
  by_contra hcon
  push Not at hcon
  obtain ⟨hs, -, hm, -⟩ := C24_monomial_basis (by omega) _ _ _ hb
  have hirr : ∀ m : Mon n, m ∈ lmb ↔ ∀ g ∈ G, ¬ F4.lead g ≤ m := by
    intro m
    rw [hm]
    simp only [List.mem_map, forall_exists_index, and_imp, forall_apply_eq_imp_iff₂]
    rfl
  have h2m : (Pi.single ⟨i, by omega⟩ 2 : Mon n) ∈ lmb := (hirr _).mpr hcon
  refine squVars_ne (i := ⟨i, by omega⟩) ?_ hi h2m hsq
  intro m hm0
  have h0 : (0 : Mon n) ∈ lmb := (hirr 0).mpr fun g hg hle => (hirr _).mp h2m g hg (hle.trans fun _ => Nat.zero_le _)
  cases lmb with
  | nil => simp at h0
  | cons a l =>
    obtain rfl : a = m := by simpa using hm0
    rcases List.mem_cons.mp h0 with h0 | h0
    · exact h0.symm
    · have h1 : OKind.drl.lt a 0 := (List.pairwise_cons.mp hs).1 0 h0
      by_contra ha
      exact OKind.drl.adm.irrefl _ (OKind.drl.adm.trans _ _ _ h1 (OKind.drl.adm.one_lt a ha))

/-- Whether the random linear form is used. -/
def isGeneric (r : Result) : Bool :=
  match r with
  | .generic _ => true
  | _ => false

/-- **C78**: modulo a prime the random linear form is used at most once, and squares are tested until then. -/
theorem C78_once {handling : ℕ} {us : ℤ} {p : ℕ} [Fact p.Prime] {g0 g : Gens} {chk : Bool} {rs : List Result}
    (h : Loop handling us p g0 g chk rs) : (rs.filter isGeneric).length = if chk then 0 else 1 := by
  induction h with
  | start => rfl
  | failed _ _ _ ih => simpa [List.filter_append, isGeneric] using ih
  | @generic g g' chk rs d _ ha _ _ ih =>
    obtain ⟨gens, G, -, -, ho⟩ := ha
    rw [(C78_squares ho).1] at ih
    simp only [if_true] at ih
    simp [List.filter_append, ih, List.filter_cons, isGeneric]

/-- **C80**: over the rationals the random linear form is used at most once. -/
theorem C80_once {handling : ℕ} {us : ℤ} {nt : ℕ} {g0 g : Gens} {chk : Bool} {rs : List Result}
    (h : LoopQ handling us nt g0 g chk rs) : (rs.filter isGeneric).length = if chk then 0 else 1 := by
  induction h with
  | start => rfl
  | failed _ _ _ ih => simpa [List.filter_append, isGeneric] using ih
  | @generic g g' chk rs ps d _ ha _ _ ih =>
    obtain ⟨gens, im, ng, Z, p0, hp0, tr, G, a0, -, -, -, -, -, ho, hm⟩ := ha
    cases a0 with
    | generic =>
      rw [(C78_squares ho).1] at ih
      simp only [if_true] at ih
      simp [List.filter_append, ih, List.filter_cons, isGeneric]
    | empty => exact absurd hm.1 (by simp)
    | positive => exact absurd hm.1 (by simp)
    | failed => exact absurd hm.1 (by simp)
    | ok d w cs =>
      obtain ⟨_, _, _, _, _, _, _, _, _, _, _, _, ⟨_, _, _, _, hm⟩ | ⟨_, hm⟩⟩ := hm
      · exact absurd hm (by simp)
      · exact absurd hm (by simp)

/-- The loop over the rationals begins with the generators of the file; for restarts modulo a prime see SolveOnceEx.lean. -/
example (g0 : Gens) : LoopQ 2 2 1 g0 g0 true [] := .start

end SolveOnce
end Verif.Props
