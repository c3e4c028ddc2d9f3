import Verif.SolveQ

/-!
The library function `msolve_julia`: from the arrays of the caller to the arrays that are returned.
Source: src/msolve/msolve.c 98-105, 2089-2160, 3447-3525, 4708-4835, 4838-5108.
-/
namespace Verif.Julia

open Verif.Spec Verif.VarOrder Verif.Output Verif.SolveQ Verif.RealPoints

/-- The generators that are handed to `core_msolve`, msolve.c 5009-5049, for `field_char = 0`: copies of the arrays of the caller. -/
def gensOfArrays (names : List (List Char)) (lens : List ℕ) (exps cfs : List ℤ) : Gens where
  nvars := names.length
  fc := 0
  vnames := names.map String.ofList
  lens := lens
  exps := exps
  mpz := cfs

/-- The same for a prime, msolve.c 5037-5040. -/
def gensOfArraysP (names : List (List Char)) (p : ℕ) (lens : List ℕ) (exps cfs : List ℤ) : Gens where
  nvars := names.length
  fc := p
  vnames := names.map String.ofList
  lens := lens
  exps := exps
  cfs := cfs

/-- `mpz_param_t`, as far as it is exported; `coords` with `cfs`, `none` for the null pointer (`mpz_param_init`, msolve.c 98-105). -/
structure MpzParam where
  nvars : ℕ := 0
  dim : ℤ
  dquot : ℤ
  elim : List ℤ := []
  denom : List ℤ := []
  coords : Option (List (List ℤ × ℤ)) := none

/-- What is returned: `rp_ld`, `rp_nr_vars`, `rp_dim`, `rp_dquot`, `rp_lens`, `rp_cfs`, `rp_cfs_linear_form`, the buffers of `rp_var_namesp`, `n_real_sols`, `real_sols_num`,
`real_sols_den`; `none` for a null pointer or an argument that is not written. -/
structure Out where
  ld : ℤ
  nvars : ℕ
  dim : ℤ
  dquot : ℤ
  lens : Option (List ℕ) := none
  cfs : Option (List ℤ) := none
  form : Option (List ℤ) := none
  names : List (List Char)
  nsols : ℕ
  num : Option (List ℤ) := none
  den : Option (List ℕ) := none

/-- The coefficients of the linear form, msolve.c 4861-4873: every second entry behind the coefficients of the first `ngens - 1` polynomials.  Outer `none`: an entry
outside the array. -/
def formOf (g : Gens) : Option (Option (List ℤ)) :=
  if 0 < g.lfbc then ((List.range g.nvars).mapM fun i => g.mpz[2 * g.lens.dropLast.sum + 2 * i]?).map some else some none

/-- The buffers of the names: `calloc` with `strlen` bytes (msolve.c 5028-5031), without room for the terminating zero; only the buffer of the added variable has one (538, 639). -/
def buffers (g : Gens) : List (List Char) :=
  g.vnames.mapIdx fun i s => if 0 < g.lfbc ∧ i + 1 = g.nvars then s.toList ++ ['\x00'] else s.toList

/-- The coordinates that are read, msolve.c 4895-4898 and 4915-4921. -/
def coordsOf (P : MpzParam) : Option (List (List ℤ × ℤ)) :=
  if P.nvars ≤ 1 then some [] else P.coords.bind fun l => (List.range (P.nvars - 1)).mapM fun i => l[i]?

/-- The bounds of all coordinates of all points, msolve.c 4947-4957 (`k_do`, `k_up` fit into 32 bits). -/
def numOf (pts : List (List Box)) : List ℤ := pts.flatMap fun bs => bs.flatMap fun b => [b.vdo, b.vup]
def denOf (pts : List (List Box)) : List ℕ := pts.flatMap fun bs => bs.flatMap fun b => [b.kdo, b.kup]

/-- `export_julia_rational_parametrization_qq`, msolve.c 4838-4952; `none`: an access outside of an array or through a null pointer.  The array `len` has
`nvars + 1` entries and entry 1 is always written; the arrays for the points have room for `2 * nb_real_roots * real_pts[0]->nvars` numbers. -/
def exportJ (g : Gens) (P : MpzParam) (pts : List (List Box)) : Option Out :=
  (formOf g).bind fun lf =>
    let o : Out := { ld := P.nvars + 1, nvars := g.nvars, dim := P.dim, dquot := P.dquot, names := buffers g, nsols := pts.length }
    if 0 < P.dim ∨ (P.dim = 0 ∧ P.dquot = 0) then some o
    else if P.nvars = 0 then none
    else (coordsOf P).bind fun cs =>
      let o := { o with
        lens := some (P.elim.length :: P.denom.length :: cs.map fun c => c.1.length + 1)
        cfs := some (P.elim ++ P.denom ++ cs.flatMap fun c => c.1 ++ [c.2])
        form := lf }
      if pts.length = 0 then some o
      else if (numOf pts).length ≤ 2 * pts.length * (pts.headD []).length then some { o with num := some (numOf pts), den := some (denOf pts) }
      else none

/-- Results of `msolve_julia`: failure (`rp_ld = -1`, `rp_dim = -1`, msolve.c 5084-5086), arrays, undefined behaviour. -/
inductive Res where
  | failed
  | ok (o : Out)
  | undefined

def Res.of : Option Out → Res
  | some o => .ok o
  | none => .undefined

/-- `mpz_param_t` after the lifting, msolve.c 776-806, 2147-2160 and 2469-2475; `nvars` as set by `display_output` (3464). -/
def paramJ (nv d nsols : ℕ) (m : ParamLift.PSt) : MpzParam where
  nvars := nv
  dim := 0
  dquot := d
  elim := (paramData nv nsols m).elim
  denom := (paramData nv nsols m).denom
  coords := (paramData nv nsols m).coords

/-- What follows the last call of `real_msolve_qq` in characteristic 0, msolve.c 4758-4831 and 5075-5086: `dim` and `dquot` as set by `msolve_trace_qq` (2089-2160), `nvars` as
set by `display_output` (3464), which is 0 otherwise; `dim = -1` is only set after the return value 1 (4794).  The output that `manage_output` prints, a second `-4` (which
restarts the same computation) and the return values -2 and -3 are left out. -/
def Returns (handling prec gp : ℕ) (g : Gens) (a : AttQ) (r : Res) : Prop :=
  match a with
  | .empty => r = Res.of (exportJ g { dim := 0, dquot := 0 } [])
  | .positive => r = Res.of (exportJ g { dim := 1, dquot := -1 } [])
  | .ok d nsols m => ∃ pts, RealPts prec gp g nsols m pts ∧
      r = Res.of (exportJ g (paramJ g.nvars d nsols m) pts)
  | .failed => handling ≠ 2 ∧ restart handling g .failed = none ∧ r = .failed
  | .generic => handling ≠ 2 ∧ ∃ d : ℕ, 0 < d ∧ r = Res.of (exportJ (if 0 ≤ g.cvo then (undo g).1 else g) { dim := 0, dquot := d } [])
  | .bad => False

/-- `msolve_julia` in characteristic 0 with `print_gb = 0` and `elim_block_len = 0`, msolve.c 4954-5108; `unstable_staircase` is 0 (5067).  `handling` is
`genericity_handling`, `gp` is `get_param`; `sys` are the polynomials of the last computation and `ps` its primes. -/
def Run (handling nt prec gp : ℕ) (names : List (List Char)) (lens : List ℕ) (exps cfs : List ℤ) (sys : List (List ((ℤ × ℤ) × List ℤ))) (ps : List ℕ) (r : Res) : Prop :=
  ∃ (g : Gens) (chk : Bool) (rs : List Result) (a : AttQ), LoopQ handling 0 nt (gensOfArrays names lens exps cfs) g chk rs ∧
    readGensQ g.nvars g.exps g.mpz 0 g.lens = some sys ∧ AttemptQ 0 nt g chk ps a ∧ Returns handling prec gp g a r

/-- What follows a computation with a parametrization modulo a prime, msolve.c 4052-4070 and 5075-5086: `display_output` sets `nvars`, the polynomials of
`mpz_param` stay empty. -/
def ReturnsP (g : Gens) (d : ℕ) (r : Res) : Prop :=
  r = Res.of (exportJ g { nvars := g.nvars, dim := 0, dquot := d } [])

/-- `msolve_julia` with a prime characteristic, when the last computation returns a parametrization; `d` is the number of solutions with multiplicities. -/
def RunP (handling p : ℕ) [Fact p.Prime] (names : List (List Char)) (lens : List ℕ) (exps cfs : List ℤ) (d : ℕ) (r : Res) : Prop :=
  ∃ (g : Gens) (chk : Bool) (rs : List Result) (w : Polynomial (ZMod p)) (cs : ℕ → Polynomial (ZMod p)),
    Solve.Loop handling 0 p (gensOfArraysP names p lens exps cfs) g chk rs ∧ Solve.Attempt p 0 g chk (.ok d w cs) ∧ ReturnsP g d r

end Verif.Julia
