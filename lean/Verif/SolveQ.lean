import Verif.Solve
import Verif.MatApply
import Verif.ParamLift
import Verif.EndToEndQq
import Verif.RealPoints

/-!
The complete computation over the rationals (the default `-P 0`, `-P 1` and `-P 2`, no elimination order): reading of the input, first prime with trace, further
primes, lifting, restarts, isolation of the real solutions, printing.
Source: src/msolve/msolve.c 1514-1808, 1940-2500, 3307-3420, 3447-3525, 4040-4148; src/fglm/fglm_core.c 1712-1825.
-/
namespace Verif.SolveQ

open Polynomial Verif.F4 Verif.Pairs Verif.Spec Verif.MulMatrix Verif.Fglm Verif.BM Verif.Hankel Verif.LinForms Verif.VarOrder Verif.Output Verif.ParamLift Verif.EndToEndQq
  Verif.Import
open Verif.Props (fieldPoly)
open Verif.Solve (Att squVars)
open Verif.MatApply (buildApply extraOf)

/-! ### The arrays -/

/-- Term number `j` in the arrays: numerator `mpz_cfs[2*j]`, denominator `mpz_cfs[2*j+1]` (io.c 374-396) and the exponents.  `none`: outside the arrays. -/
def readTermQ (nv : ℕ) (exps mpz : List ℤ) (j : ℕ) : Option ((ℤ × ℤ) × List ℤ) :=
  (mpz[2 * j]?).bind fun a => (mpz[2 * j + 1]?).bind fun b => ((List.range nv).mapM fun i => exps[nv * j + i]?).map fun e => ((a, b), e)

/-- The generators in the arrays, with the running offset `off`, io.c 374-403.  The lengths are assumed not to be negative. -/
def readGensQ (nv : ℕ) (exps mpz : List ℤ) : ℕ → List ℕ → Option (List (List ((ℤ × ℤ) × List ℤ)))
  | _, [] => some []
  | off, l :: ls => ((List.range' off l).mapM (readTermQ nv exps mpz)).bind fun f =>
      (readGensQ nv exps mpz (off + l) ls).map fun r => f :: r

/-- The arrays after reading a file with characteristic 0, iofiles.c (C58). -/
def gensOfQ (names : List (List Char)) (ps : List (List ((ℤ × ℤ) × List ℤ))) : Gens where
  nvars := names.length
  fc := 0
  vnames := names.map String.ofList
  lens := ps.map List.length
  exps := ps.flatMap fun f => f.flatMap Prod.snd
  mpz := ps.flatMap fun f => f.flatMap fun t => [t.1.1, t.1.2]

/-! ### Images modulo primes -/

/-- The normalised parametrization modulo `p` (`normalize_nmod_param`, msolve.c 913-938, called in 2166 and 2390) as arrays; `elim` is `w`, the coordinates are
`cs k` for `k < nv - 1`. -/
def IsImg (p : ℕ) [Fact p.Prime] (w : (ZMod p)[X]) (cs : ℕ → (ZMod p)[X]) (nv : ℕ) (g : Img) : Prop :=
  let N := (Lift.normalize p ⟨w, 1, (List.range (nv - 1)).map cs⟩).coords
  g.p = p ∧ g.elen = Lift.len w ∧ (∀ i, i < g.elen → g.e i = (w.coeff i).val) ∧
    (∀ k, g.clen k = Lift.len (N.getD k 0)) ∧ ∀ k j, j < g.clen k → g.c k j = ((N.getD k 0).coeff j).val

/-- What follows the application of the trace modulo `p`, msolve.c 1734-1806: the leading monomials are compared with those of the first prime (`lms`), the matrix is
built, `nmod_fglm_compute_apply_trace_data` (fglm_core.c 1712-1825) computes the parametrization.  `none`: the prime is reported as bad.  `nsols` is the degree of the
first eliminating polynomial.  In shape position a failure of `compute_parametrizations` ends the program (fglm_core.c 1802-1809), which is no execution; otherwise the result of
the verification is ignored and the coordinates are arbitrary here. -/
def LaterImg {n : ℕ} (nsols : ℕ) (lms lmb : List (Mon n)) (p : ℕ) (G : List (Poly n)) (g : Option Img) : Prop :=
  if G.map F4.lead ≠ lms then g = none
  else ∃ (_ : Fact p.Prime) (nf : List (Poly n) → List (Option (Poly n))) (last : Fin n) (extra : List ℕ) (M : MMat)
      (ev0 : ℕ → ℕ) (vecinit vvec : ℕ → ZMod p) (hg : (ZMod p)[X] → (ZMod p)[X] → HM (ZMod p)) (sqf : List ((ZMod p)[X] × ℕ)),
    (∀ tbr, (∀ f ∈ tbr, InPoly p f) → NfRun .drl p G (List.range G.length) tbr (nf tbr)) ∧ last.val = n - 1 ∧
    extraOf last lms lmb = .ok extra ∧ buildApply p last G lms lmb (divIdx last lms) extra nf = .ok M ∧
    let P := fun i => fieldPoly p (G.getD i [])
    let V := minPoly hg ((M.toMat p).pts vecinit vvec) lmb.length
    let elim := sqfPart V lmb.length sqf
    let lv := linVars n lms.length (fun i j => Orders.ext (lms.getD i 0) j)
    HgcdOk hg ∧ SqfOk V sqf ∧
    if elim.natDegree ≠ nsols then g = none
    else if elim.natDegree = lmb.length then
      ∃ (r : (ZMod p)[X] × (ℕ → (ZMod p)[X])) (img : Img),
        params (invert hg ((M.toMat p).pts vecinit vvec) lmb.length) lmb.length ((M.toMat p).res vecinit vvec) lv.2 lv.1
          (rows (slotSet (Orders.evl n 0) (Orders.ebl 0)) n (fun j => (P j).map fun t => (Orders.setEv n 0 (Orders.ext t.1) ev0, t.2)) lv.1)
          n elim = some r ∧ IsImg p r.1 r.2 n img ∧ g = some img
    else ∃ (cs : ℕ → (ZMod p)[X]) (img : Img), IsImg p elim cs n img ∧ g = some img

/-! ### Rounds -/

section
variable {m : ℕ} (nsols : ℕ) (Z : List (List ((Fin m → ℕ) × ℤ))) (tr : Tr m) (p0 : ℕ) (lms lmb : List (Mon m))

/-- The primes of one round (`secondary_modular_steps`, msolve.c 1664-1808, one prime for each thread, 2262-2307), beginning after the prime `q`, ending with `q'`.
The variable `error` is shared by the threads: with `err` it may be set by another one.  After an error `nmod_params[i]` is set to NULL (1730) and used in the next
round (undefined behaviour, not excluded here). -/
inductive Threads (err : Bool) : ℕ → List (ℕ × Option Img) → ℕ → Prop
  | nil (q : ℕ) : Threads err q [] q
  | failed {q p q' : ℕ} {ts : List (ℕ × Option Img)} : NextGood Z p0 q p → Applied 0 Z tr p none ∨ err = true → Threads err p ts q' →
      Threads err q ((p, none) :: ts) q'
  | image {q p q' : ℕ} {G : List (Poly m)} {g : Option Img} {ts : List (ℕ × Option Img)} : NextGood Z p0 q p → Applied 0 Z tr p (some G) →
      LaterImg nsols lms lmb p G g → Threads err p ts q' → Threads err q ((p, g) :: ts) q'

/-- The rounds with `nt` threads, msolve.c 2261-2465; the truth values are `doit`, which depends on timings. -/
inductive Rounds (nt : ℕ) : ℕ → List (Bool × List (ℕ × Option Img)) → Prop
  | nil (q : ℕ) : Rounds nt q []
  | cons {q q' : ℕ} {doit err : Bool} {ts : List (ℕ × Option Img)} {rs : List (Bool × List (ℕ × Option Img))} :
      Threads nsols Z tr p0 lms lmb err q ts q' → ts.length = nt → (err = true → ∃ t ∈ ts, Applied 0 Z tr t.1 none) → Rounds nt q' rs →
      Rounds nt q ((doit, ts) :: rs)
end

/-! ### One call of `real_msolve_qq` -/

/-- Results of `msolve_trace_qq` over the rationals: no solution, infinitely many, a parametrization with `dquot`, the degree of the eliminating polynomial and the
lifted data, return values 1 (failed), 2 (generic), -4 (bad primes). -/
inductive AttQ where
  | empty
  | positive
  | ok (d nsols : ℕ) (m : PSt)
  | failed
  | generic
  | bad

/-- One call, msolve.c 1940-2500, 3307-3420: import (io.c, engine.c), first prime with `initial_modular_step` (`Outcome`), further primes, lifting.  `ps` are the
primes, `nt` the number of threads; `inv` is the inversion of GMP, `junk` former contents of the memory (C65).  The loop stops with the last of the rounds.
That `-4` is returned after a second `free` of the reconstruction data (2428-2438, undefined behaviour) is left out. -/
def AttemptQ (us : ℤ) (nt : ℕ) (g : Gens) (chk : Bool) (ps : List ℕ) (a : AttQ) : Prop :=
  ∃ (gens im : List (List ((ℤ × ℤ) × List ℤ))) (ng : ℤ) (Z : List (List ((Fin (0 + g.nvars) → ℕ) × ℤ))) (p0 : ℕ) (_ : Fact p0.Prime)
    (tr : Tr (0 + g.nvars)) (G : List (Poly (0 + g.nvars))) (a0 : Att (ZMod p0)),
    readGensQ g.nvars g.exps g.mpz 0 g.lens = some gens ∧ importGens invalidQ 0 gens = .ok im ng ∧ Input 0 g.nvars im Z ∧ FirstPrime Z p0 ∧
    First 0 Z none p0 tr G ∧ Solve.Outcome p0 us chk G a0 ∧
    match a0 with
    | .empty => a = .empty ∧ ps = [p0]
    | .positive => a = .positive ∧ ps = [p0]
    | .failed => a = .failed ∧ ps = [p0]
    | .generic => a = .generic ∧ ps = [p0]
    | .ok d w cs => ∃ (img : Img) (inv : ℤ → ℤ → ℤ) (junk : ℤ) (fuel : ℕ) (lmb : List (Mon (0 + g.nvars)))
        (rounds : List (Bool × List (ℕ × Option Img))),
        let c : Cfg := ⟨img.elen - 1, g.nvars - 1, tridx img, detidx img, inv, junk⟩
        IsImg p0 w cs (0 + g.nvars) img ∧ CRT.InvSpec inv ∧ Hilbert.monomialBasis (G.map F4.lead) fuel = .done lmb ∧
        Rounds (img.elen - 1) Z tr p0 (G.map F4.lead) lmb nt p0 rounds ∧
        (∀ k, k < rounds.length → ∃ s, run c img (rounds.take k) = .running s) ∧
        ps = p0 :: (rounds.flatMap Prod.snd).map Prod.fst ∧
        ((∃ s m, run c img rounds = .done s ∧ s.m = some m ∧ a = .ok d (img.elen - 1) m) ∨ (run c img rounds = .fail ∧ a = .bad))

/-- The restarts of `core_msolve`, msolve.c 4085-4148; see `Solve.Loop`. -/
inductive LoopQ (handling : ℕ) (us : ℤ) (nt : ℕ) (g0 : Gens) : Gens → Bool → List Result → Prop
  | start : LoopQ handling us nt g0 g0 true []
  | failed {g g' : Gens} {chk : Bool} {rs : List Result} {ps : List ℕ} : LoopQ handling us nt g0 g chk rs → AttemptQ us nt g chk ps .failed →
      restart handling g .failed = some g' → LoopQ handling us nt g0 g' chk (rs ++ [.failed])
  | generic {g g' : Gens} {chk : Bool} {rs : List Result} {ps : List ℕ} (d : List ℤ) : LoopQ handling us nt g0 g chk rs →
      AttemptQ us nt g chk ps .generic → Accepted 0 (g0.nvars + 1) d → restart handling g (.generic d) = some g' →
      LoopQ handling us nt g0 g' false (rs ++ [.generic d])

/-- The lifted parametrization that is printed: `mpz_param->elim`, `->denom` (msolve.c 2469-2475), `->coords` and `->cfs` (776-806). -/
def paramData (nv nsols : ℕ) (m : PSt) : ParamData where
  elim := (List.range (nsols + 1)).map m.E
  denom := (List.range nsols).map (denom m)
  coords := some ((List.range (nv - 1)).map fun k => ((List.range nsols).map (m.C k), m.cf k))
  melim := []
  mdenom := []
  mcoords := none

/-- The lifted parametrization as `mpz_param_t`: `elim` has length `nsols + 1`, `denom` and the coordinates have length `nsols`. -/
def paramOf (nv nsols : ℕ) (m : PSt) : RealPoints.Param where
  elim := m.E
  nsols := nsols
  denom := denom m
  dlen := nsols
  coords := (List.range (nv - 1)).map fun k => ⟨m.C k, nsols, m.cf k⟩

/-- The coordinates that are printed, msolve.c 3394-3417: not that of the added variable; a changed order of the variables is changed back only if the
parametrization is not requested. -/
def shown {α : Type} (gp : ℕ) (g : Gens) (pt : List α) : List α :=
  if gp = 0 then restore g pt else if 0 < g.lfbc then pt.take (g.nvars - 1) else pt

/-- The boxes of the real points, msolve.c 3378-3419 (none for `-P 2`); `prec` is the option `-p`, `shl` are the results of shifts by too many bits (C54).  The
computation ends with `raw` if this is the result for all sufficiently large bounds for the number of turns of the loops. -/
def RealPts (prec gp : ℕ) (g : Gens) (nsols : ℕ) (m : PSt) (pts : List (List RealPoints.Box)) : Prop :=
  if 1 < gp then pts = []
  else ∃ (shl : ℕ → ℤ) (K : ℕ) (raw : List (List RealPoints.Box)),
    (∀ fuel ≥ K, RealPoints.isolateParam shl fuel (paramOf g.nvars nsols m) prec = .done raw) ∧ pts = raw.map (shown gp g)

/-- What `manage_output` prints, msolve.c 3508-3525; nothing for other return values than 0. -/
def PrintsQ (prec gp : ℕ) (g : Gens) (a : AttQ) (out : List Char) : Prop :=
  match a with
  | .empty => ∃ D, displayOutput g 0 0 gp D [] = some out
  | .positive => ∃ D, displayOutput g 1 (-1) gp D [] = some out
  | .ok d nsols m => ∃ pts, RealPts prec gp g nsols m pts ∧ displayOutput g 0 d gp (paramData g.nvars nsols m) pts = some out
  | .failed => False
  | .generic => False
  | .bad => False

/-- `msolve` with the input file `input` prints `out`; `handling` is the option `-c` (2 by default), `gp` the option `-P`, `prec` the option `-p`, `nt` the option `-t`; `sys` are
the polynomials of the last computation and `ps` its primes.  Executions without output are no runs. -/
def Run (handling : ℕ) (us : ℤ) (nt prec gp : ℕ) (input : List Char) (sys : List (List ((ℤ × ℤ) × List ℤ))) (ps : List ℕ) (out : List Char) : Prop :=
  ∃ (names : List (List Char)) (polys : List (List ((ℤ × ℤ) × List ℤ))) (g : Gens) (chk : Bool) (rs : List Result) (a : AttQ),
    Parse.readFile input = some ⟨names, 0, .qq polys⟩ ∧ LoopQ handling us nt (gensOfQ names polys) g chk rs ∧
      readGensQ g.nvars g.exps g.mpz 0 g.lens = some sys ∧ AttemptQ us nt g chk ps a ∧ PrintsQ prec gp g a out

end Verif.SolveQ
