import Verif.Program
import Verif.EndToEndSat

/-!
The whole program with `-S`: `main` (src/msolve/main.c 343-483) with the path of the saturation in `core_msolve` (src/msolve/msolve.c 3645-3737).
-/
namespace Verif.Program

open Verif.Options Verif.Parse

/-- An execution of the program with the words `argv` behind its name on the disk `d`, with the saturation over a prime field and an output file; afterwards the disk is `d'`.  The
messages on the standard output are left out, and with them the executions without an output file; also `-i` (nothing is computed), elimination orders, and the options left out in `Output`. -/
def ExecSat (can : List Char → Bool) (argv : List (List Char)) (d d' : Disk) : Prop :=
  ∃ o c d1 r const out f, getoptions argv = .run o ∧ start o d can = (.reads c, d1) ∧ readFile c = some r ∧ 0 < r.char ∧ pathOf o r.char = .saturate ∧
    linearAlgebra o r.char = 2 ∧ o.truncate = 0 ∧ o.updateHt = 0 ∧ o.info = 0 ∧ 0 < o.threads ∧ o.elim = 0 ∧ o.isGb = 0 ∧
    EndToEndSat.Run o.printGb c const out ∧ o.outFile = some f ∧ d' = fun g => if g = f then (d1 f).map fun x => x ++ out else d1 g

end Verif.Program
