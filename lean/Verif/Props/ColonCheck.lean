import Verif.ColonCheck
import Mathlib.Tactic.Linarith
import Mathlib.Tactic.NormNum

/-!
C97: what `msolve -C` reports about the parametrizations.
-/
namespace Verif.Props
open Verif.ColonCheck

namespace ColonCheck

/-- The coordinate `j` was compared with a second computation, and it was different. -/
def Fails (linvars squvars : ℕ → ℕ) (ok : ℕ → Bool) (j : ℕ) : Prop := linvars j = 0 ∧ squvars j ≠ 0 ∧ ok j = false

instance (linvars squvars : ℕ → ℕ) (ok : ℕ → Bool) : DecidablePred (Fails linvars squvars ok) := fun _ => by unfold Fails; infer_instance

theorem verifyLoop_keep {nvars : ℕ} {linvars squvars : ℕ → ℕ} {ok : ℕ → Bool} : ∀ (cnt nc : ℕ) (nr : ℤ), nr ≠ -1 → verifyLoop nvars linvars squvars ok cnt nc nr = nr := by
  intro cnt
  induction cnt with
  | zero => intro nc nr _; rfl
  | succ cnt ih =>
    intro nc nr h
    rw [verifyLoop, if_neg h, ite_self, ite_self]
    exact ih _ _ h

theorem verifyLoop_spec {nvars : ℕ} {linvars squvars : ℕ → ℕ} {ok : ℕ → Bool} : ∀ (cnt nc : ℕ), nc + cnt + 1 = nvars →
    (verifyLoop nvars linvars squvars ok cnt nc (-1) = -1 ∧ ∀ j, j < cnt → ¬ Fails linvars squvars ok j) ∨
    ∃ j, j < cnt ∧ verifyLoop nvars linvars squvars ok cnt nc (-1) = j ∧ Fails linvars squvars ok j ∧ ∀ j', j < j' → j' < cnt → ¬ Fails linvars squvars ok j' := by
  intro cnt
  induction cnt with
  | zero => exact fun nc _ => .inl ⟨rfl, fun j hj => by omega⟩
  | succ cnt ih =>
    intro nc h
    have e : nvars - 2 - nc = cnt := by omega
    rw [verifyLoop, e]
    by_cases hf : Fails linvars squvars ok cnt
    · rw [if_pos ⟨hf.1, hf.2.1⟩, if_pos hf.2.2, if_pos rfl, verifyLoop_keep _ _ _ (by omega)]
      exact .inr ⟨cnt, by omega, rfl, hf, fun j' h1 h2 => by omega⟩
    · have e2 : (if linvars cnt = 0 ∧ squvars cnt ≠ 0 then (if ok cnt = false then (if (-1 : ℤ) = -1 then (cnt : ℤ) else -1) else -1) else -1) = -1 := by
        split_ifs with h1 h2 h3
        · exact absurd ⟨h1.1, h1.2, h2⟩ hf
        all_goals rfl
      rw [e2]
      rcases ih (nc + 1) (by omega) with ⟨h1, h2⟩ | ⟨j, h1, h2, h3, h4⟩
      · refine .inl ⟨h1, fun j hj => ?_⟩
        by_cases hj' : j = cnt
        · rw [hj']; exact hf
        · exact h2 j (by omega)
      · refine .inr ⟨j, by omega, h2, h3, fun j' h5 h6 => ?_⟩
        by_cases hj' : j' = cnt
        · rw [hj']; exact hf
        · exact h4 j' h5 (by omega)

end ColonCheck

open Verif.Props.ColonCheck

/-- C97: for any marks of the variables, the number that is returned is the number of variables if no comparison fails, and otherwise one more than the number of coordinates that come before the first
one (from the last index down) whose comparison fails. -/
theorem C97_result {nvars : ℕ} (h : 1 ≤ nvars) (linvars squvars : ℕ → ℕ) (ok : ℕ → Bool) :
    (compute nvars linvars squvars ok true = nvars ∧ ∀ j, j < nvars - 1 → ¬ Fails linvars squvars ok j) ∨
    ∃ k, k < nvars - 1 ∧ compute nvars linvars squvars ok true = k + 1 ∧ Fails linvars squvars ok (nvars - 2 - k) ∧ ∀ k' < k, ¬ Fails linvars squvars ok (nvars - 2 - k') := by
  unfold compute
  rw [if_pos rfl]
  rcases verifyLoop_spec (nvars := nvars) (linvars := linvars) (squvars := squvars) (ok := ok) (nvars - 1) 0 (by omega) with ⟨h1, h2⟩ | ⟨j, h1, h2, h3, h4⟩
  · exact .inl ⟨by rw [h1]; omega, h2⟩
  · refine .inr ⟨nvars - 2 - j, by omega, by rw [h2]; omega, ?_, fun k' hk => h4 _ (by omega) (by omega)⟩
    rwa [show nvars - 2 - (nvars - 2 - j) = j by omega]

/-- C97: for any marks of the variables and at least three variables, "all correct" is reported exactly if every comparison of a marked variable succeeds (`prime` is accepted and the table can be
inverted).

Partial: `msolve -C` does not mark the variables, see `C97_never_checked`. -/
theorem C97_all_partial {prime nvars : ℕ} (hp : prime < 1518500213) (h : 3 ≤ nvars) (linvars squvars : ℕ → ℕ) (ok : ℕ → Bool) :
    report prime nvars linvars squvars ok true = .allCorrect ↔ ∀ j, j < nvars - 1 → linvars j = 0 → squvars j ≠ 0 → ok j = true := by
  unfold report
  rw [if_neg (by omega)]
  simp only
  rcases C97_result (nvars := nvars) (by omega) linvars squvars ok with ⟨h1, h2⟩ | ⟨k, h1, h2, h3, -⟩
  · rw [h1, if_neg (by omega), if_neg (by omega), if_neg (by omega), if_neg (by omega)]
    refine ⟨fun _ j hj a b => ?_, fun _ => rfl⟩
    by_contra hc
    exact h2 j hj ⟨a, b, by simpa using hc⟩
  · rw [h2]
    have h5 : ¬ ∀ j, j < nvars - 1 → linvars j = 0 → squvars j ≠ 0 → ok j = true := fun hall => by
      have := hall _ (by omega) h3.1 h3.2.1
      rw [h3.2.2] at this
      exact absurd this (by simp)
    refine iff_of_false ?_ h5
    split_ifs <;> first | omega | simp

/-- C97 (finding): with the marks that `msolve -C` passes, nothing is compared: for at least three variables, "all correct" is reported whatever the coordinates are. -/
theorem C97_never_checked {prime nvars : ℕ} (hp : prime < 1518500213) (h : 3 ≤ nvars) (ok : ℕ → Bool) : run prime nvars ok true = .allCorrect :=
  (C97_all_partial hp h _ _ ok).mpr fun _ _ _ hc => absurd rfl hc

/-- C97 (finding): and for two variables, "only the first" is reported, and for one variable "none". -/
theorem C97_few_variables {prime : ℕ} (hp : prime < 1518500213) (ok : ℕ → Bool) : run prime 2 ok true = .onlyFirst ∧ run prime 1 ok true = .noneCorrect := by
  constructor
  · rcases C97_result (nvars := 2) (by norm_num) (fun _ => 0) (fun _ => 0) ok with ⟨h1, -⟩ | ⟨k, -, -, h3, -⟩
    · unfold run report
      rw [if_neg (by omega)]
      simp only [h1]
      norm_num
    · exact absurd rfl h3.2.1
  · unfold run report
    rw [if_neg (by omega)]
    rfl

/-- C97 (finding): for a prime that is too large, or if the table cannot be inverted, the pointer `NULL` is read after the message; otherwise it is not. -/
theorem C97_null {prime nvars : ℕ} (h : 1 ≤ nvars) (linvars squvars : ℕ → ℕ) (ok : ℕ → Bool) (inv : Bool) :
    report prime nvars linvars squvars ok inv = .null ↔ 1518500213 ≤ prime ∨ inv = false := by
  unfold report
  by_cases hp : prime ≥ 1518500213
  · simp [hp]
  · rw [if_neg hp]
    cases inv with
    | false => simp [compute]
    | true =>
      have h0 : compute nvars linvars squvars ok true ≠ 0 := by
        rcases C97_result h linvars squvars ok with ⟨h1, -⟩ | ⟨k, -, h2, -⟩ <;> omega
      refine iff_of_false ?_ (by simpa using hp)
      simp only
      rw [if_neg h0]
      split_ifs <;> simp

/-- `C97_all_partial` distinguishes: with a mark, a wrong coordinate is found; without, it is not. -/
example : report 65521 4 (fun _ => 0) (fun _ => 1) (fun j => j != 0) true = .onlyFirsts 2 ∧ run 65521 4 (fun j => j != 0) true = .allCorrect := by decide

end Verif.Props
