import Mathlib.Data.Nat.Basic
import Mathlib.Tactic.Common

/-!
What `msolve -C` reports about the parametrizations.
Source: src/fglm/fglm_core.c 1363-1461, 2085-2182; src/msolve/msolve.c 3964-3981.

The polynomials are not part of this model: `ok j` says whether the coordinate `j` that was computed is equal to the one that is computed a second time with a random number.
-/
namespace Verif.ColonCheck

/-- The second loop of `compute_parametrizations_colon`, fglm_core.c 1404-1447: `cnt` turns are left, `nr` is `nr_fail_param`. -/
def verifyLoop (nvars : ℕ) (linvars squvars : ℕ → ℕ) (ok : ℕ → Bool) : ℕ → ℕ → ℤ → ℤ
  | 0, _, nr => nr
  | cnt + 1, nc, nr =>
    verifyLoop nvars linvars squvars ok cnt (nc + 1)
      (if linvars (nvars - 2 - nc) = 0 ∧ squvars (nvars - 2 - nc) ≠ 0 then (if ok (nvars - 2 - nc) = false then (if nr = -1 then ((nvars - 2 - nc : ℕ) : ℤ) else nr) else nr) else nr)

/-- `compute_parametrizations_colon`, fglm_core.c 1363-1461, with `verif = 1`; `inv` is the result of `invert_table_polynomial`. -/
def compute (nvars : ℕ) (linvars squvars : ℕ → ℕ) (ok : ℕ → Bool) (inv : Bool) : ℤ :=
  if inv then (nvars : ℤ) - 1 - verifyLoop nvars linvars squvars ok (nvars - 1) 0 (-1) else 0

/-- What the user sees: one of the messages and then the parametrization, or the pointer `NULL` is read (msolve.c 3981, fglm_core.c 119). -/
inductive Out where
  | null
  | noneCorrect
  | onlyFirst
  | onlyFirsts (k : ℤ)
  | allCorrect
  deriving DecidableEq

/-- `nmod_fglm_guess_colon`, fglm_core.c 2085-2089, 2146-2182, and its call in msolve.c 3967-3981, for any `linvars`, `squvars`. -/
def report (prime nvars : ℕ) (linvars squvars : ℕ → ℕ) (ok : ℕ → Bool) (inv : Bool) : Out :=
  if prime ≥ 1518500213 then .null
  else
    let r := compute nvars linvars squvars ok inv
    if r = 0 then .null else if r = 1 then .noneCorrect else if r = 2 then .onlyFirst else if r < nvars then .onlyFirsts (r - 1) else .allCorrect

/-- The call in msolve.c 3964-3970: `linvars` and `squvars` are filled with zeros. -/
def run (prime nvars : ℕ) (ok : ℕ → Bool) (inv : Bool) : Out := report prime nvars (fun _ => 0) (fun _ => 0) ok inv

end Verif.ColonCheck
