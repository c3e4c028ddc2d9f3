import Verif.Options
import Verif.EndToEndLm
import Verif.EndToEndNf
import Verif.ExportQq
import Verif.Solve

/-!
The whole program: `main` (src/msolve/main.c 343-483) with the choice of the computation in `core_msolve` (src/msolve/msolve.c 3527-4835).
-/
namespace Verif.Program

open Verif.Options Verif.Parse

/-- The computations among which `core_msolve` chooses. -/
inductive Path where
  | signatures
  | saturate
  | colon
  | normalForms
  | leads
  | basis
  | solve
  deriving DecidableEq

/-- Without saturation, colon ideals and normal forms, msolve.c 4044-4070 and 4712-4758; with an elimination order `print_gb` is set to 2 if it is 0. -/
def printed (o : Opts) : Path :=
  let g := if 0 < o.elim ∧ o.printGb = 0 then 2 else o.printGb
  if g = 0 then .solve else if g = 1 then .leads else .basis

/-- `core_msolve` for the characteristic `fc`, msolve.c 3578-3580, 3645, 3739, 4039; 4489, 4707.  Over the rationals the options `-q`, `-C`, `-n` are not looked at here. -/
def pathOf (o : Opts) (fc : ℤ) : Path :=
  if 0 < fc then
    if 0 < o.signatures then .signatures
    else if o.saturate = 1 then .saturate
    else if o.colon = 1 then .colon
    else if o.normalForm = 0 then printed o
    else .normalForms
  else if o.saturate = 1 then .saturate
  else printed o

/-- What is written for the content `input` of the input file.  Modelled are the paths of C73, C76, C78, C79, C83, C86, C87, for the exact sparse linear algebra, and without the options
that change the lifting (`-N`, `-L`), renew the hash table (`-u`), use signatures or write more messages (`-v`); other paths have no executions here.  `-r`
and the hash table size `-s` are not used on these paths (`reduce_gb` is 1, msolve.c 1544-1600 and engine.c), `-i` and `-M` only for normal forms (msolve.c 4191, 4235;
with `-M` a matrix is written to the standard output, which is left out).  `-m` is any number of pairs in F4 (C44). -/
def Output (E : LiftGB.Ext) (o : Opts) (input out : List Char) : Prop :=
  ∃ r, readFile input = some r ∧ linearAlgebra o r.char = 2 ∧ o.truncate = 0 ∧ o.liftMatrix = 0 ∧ o.updateHt = 0 ∧ o.info = 0 ∧ o.signatures = 0 ∧ 0 < o.threads ∧
    match pathOf o r.char with
    | .basis =>
      if 0 < r.char then EndToEnd.Run o.elim.toNat input out
      else ∃ n us, EndToEndQq.Run E o.threads.toNat o.elim.toNat n input us (.printed out)
    | .leads =>
      if 0 < r.char then EndToEnd.RunLead o.elim.toNat input out
      else ∃ n us, ExportQq.RunLm o.elim.toNat n input us (.printed out)
    | .solve =>
      if 0 < r.char then Solve.Run o.genericity.toNat o.staircase o.param.toNat input out
      else ∃ sys ps, SolveQ.Run o.genericity.toNat o.staircase o.threads.toNat o.precision.toNat o.param.toNat input sys ps out
    | .normalForms => o.nfMatrix = 0 ∧ EndToEndNf.Run (decide (o.isGb = 1)) o.elim.toNat o.normalForm.toNat input out
    | _ => False

/-- An execution of the program with the words `argv` behind its name on the disk `d`; afterwards the disk is `d'`, and `so` was written to the standard output.  The output is
appended to the output file, which was emptied before (main.c 409-416; iofiles.c 339-360, msolve.c `manage_output`), or written over it (lifting-gb.c 1698). -/
def Exec (E : LiftGB.Ext) (can : List Char → Bool) (argv : List (List Char)) (d d' : Disk) (so : List Char) : Prop :=
  ∃ o c d1 out, getoptions argv = .run o ∧ start o d can = (.reads c, d1) ∧ Output E o c out ∧
    match o.outFile with
    | none => d' = d1 ∧ so = out
    | some f => d' = (fun g => if g = f then (d1 f).map fun x => x ++ out else d1 g) ∧ so = []

end Verif.Program
