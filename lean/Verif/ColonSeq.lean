import Verif.BMSeq

/-!
How many terms of the sequence `msolve -C` computes, and the polynomial it takes from them.
Source: src/fglm/fglm_core.c 907-935, 1827-1957.

The terms are given (`a i` is the product of the left vector with the `i`-th vector); the arrays `pts`, `data_backup` have `2*ncols` entries (data_fglm.c 65, fglm_core.c 1883), `res` has
`2*ncols` blocks.  The copy at 1950 writes entries of `pts` that are not changed in between.  `ncols` is at least two in `guess`; for one row see `oneRow`.
-/
namespace Verif.ColonSeq
open Polynomial
open Verif.BM (HM elimPoly)

variable {K : Type*} [Field K]

/-- What the loop does: it ends, with the last tentative degree for which a polynomial was computed, it leaves an array, or it goes on for ever. -/
inductive Out where
  | done (t : Option ℕ)
  | outside
  | hang
  deriving DecidableEq

/-- The loop of `guess_sequence_colon`, fglm_core.c 1901-1956: `i` is the number of the next term, `t` the tentative degree, `dim t` what `guess_minpoly_colon` returns for it. -/
def loop (ncols : ℕ) (dim : ℕ → ℕ) : ℕ → ℕ → ℕ → Option ℕ → Out
  | 0, _, _, _ => .hang
  | fuel + 1, i, t, last =>
    if i ≤ 2 * t - 1 then
      if 2 * ncols ≤ i then .outside
      else if i = 2 * t - 1 then
        if dim t < t then .done (some t) else loop ncols dim fuel (i + 1) (min (3 * dim t) ncols) (some t)
      else loop ncols dim fuel (i + 1) t last
    else .done last

/-- `guess_sequence_colon` from fglm_core.c 1898 on. -/
def run (ncols : ℕ) (dim : ℕ → ℕ) : Out := loop ncols dim (2 * ncols + 1) 1 (min 4 ncols) none

/-- `make_square_free_elim_poly_colon`, fglm_core.c 907-935; `sqf` is the result of `nmod_poly_factor_squarefree`. -/
noncomputable def sqfColon (V : K[X]) (sqf : List (K[X] × ℕ)) : K[X] := by
  classical exact if Squarefree V then V else (sqf.map Prod.fst).prod

/-- `guess_minpoly_colon`, fglm_core.c 1827-1848, for the tentative degree `t`: the polynomial `param->elim`; `dim` is its degree. -/
noncomputable def guess (hg : K[X] → K[X] → HM K) (sqf : K[X] → List (K[X] × ℕ)) (a : ℕ → K) (t : ℕ) : K[X] :=
  sqfColon (elimPoly hg ((List.range (2 * t)).map a) t) (sqf (elimPoly hg ((List.range (2 * t)).map a) t))

/-- `guess_minpoly_colon` for one row, fglm_core.c 1841-1847: the coefficients of the linear polynomial; `none` is a read outside of `lineqs`. -/
def oneRow (lineqs : List ℕ) (nvars : ℕ) : Option (List ℕ) := (lineqs[nvars * (nvars + 1) - 1]?).map fun c => [c, 1]

end Verif.ColonSeq
