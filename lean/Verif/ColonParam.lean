import Verif.ColonSeq
import Verif.ColonCheck
import Verif.Fglm

/-!
The polynomials that the parametrizations of `msolve -C` are computed from.
Source: src/fglm/fglm_core.c 1117-1155, 1192-1225, 1363-1399, 1901-1956; src/fglm/berlekamp_massey.c 103-112, 126-141 (a copy of the functions of FLINT that are called).

As in `ColonSeq`, the terms are given and there are at least two rows; the loop keeps the polynomial `V1` of the structure for the Berlekamp-Massey algorithm, which the parametrizations use later.
-/
namespace Verif.ColonParam
open Polynomial
open Verif.BM (HM elimPoly)
open Verif.ColonSeq (guess)
open Verif.Fglm (invTable coordTable)

variable {K : Type*} [Field K]

/-- The loop of `guess_sequence_colon`, fglm_core.c 1901-1956, with `param->elim` and `BMS->V1`; `none` if an array is left or the loop goes on for ever.  When the guess is not accepted,
`nmod_berlekamp_massey_set_prime` (line 1949) starts over, and `V1` is 1. -/
noncomputable def loop (hg : K[X] → K[X] → HM K) (sqf : K[X] → List (K[X] × ℕ)) (a : ℕ → K) (ncols : ℕ) : ℕ → ℕ → ℕ → K[X] → K[X] → Option (K[X] × K[X])
  | 0, _, _, _, _ => none
  | fuel + 1, i, t, elim, V =>
    if i ≤ 2 * t - 1 then
      if 2 * ncols ≤ i then none
      else if i = 2 * t - 1 then
        if (guess hg sqf a t).natDegree < t then some (guess hg sqf a t, elimPoly hg ((List.range (2 * t)).map a) t)
        else loop hg sqf a ncols fuel (i + 1) (min (3 * (guess hg sqf a t).natDegree) ncols) (guess hg sqf a t) 1
      else loop hg sqf a ncols fuel (i + 1) t elim V
    else some (elim, V)

/-- `param->elim` and `BMS->V1` after `guess_sequence_colon`; they are 0 and 1 before. -/
noncomputable def run (hg : K[X] → K[X] → HM K) (sqf : K[X] → List (K[X] × ℕ)) (a : ℕ → K) (ncols : ℕ) : Option (K[X] × K[X]) :=
  loop hg sqf a ncols (2 * ncols + 1) 1 (min 4 ncols) 0 1

/-- What `msolve -C` reports after it, fglm_core.c 2146-2182: the inversion is the one of fglm_core.c 1377. -/
noncomputable def report (hg : K[X] → K[X] → HM K) (sqf : K[X] → List (K[X] × ℕ)) (xg : K[X] → K[X] → K[X] × K[X] × K[X]) (a : ℕ → K) (ncols prime nvars : ℕ) (ok : ℕ → Bool) : Option ColonCheck.Out :=
  (run hg sqf a ncols).map fun r => ColonCheck.run prime nvars ok (invTable xg r.1 r.2 a).isSome

end Verif.ColonParam
