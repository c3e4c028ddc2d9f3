import Verif.EndToEndLm
import Verif.EndToEndNf
import Verif.Saturate

/-! The path of `msolve -S` over a prime field, from the input file to the output file: msolve.c 3645-3737, f4sat.c 494-768, print_ff_basis_data
(iofiles.c 339-360).  The parts are the models of the other modules. -/

namespace Verif.EndToEndSat

open Verif.Import Verif.Parse Verif.F4 Verif.EndToEnd Verif.EndToEndNf

/-- What is written for the basis `G` with `-g g`, msolve.c 3730-3733: nothing without `-g`. -/
def printSat (names : List (List Char)) (p : ℕ) (g : ℤ) (G : List (Poly names.length)) : List Char :=
  if g = 0 then [] else if g = 1 then printLead names p 0 G else printBasis names p 0 G

/-- The end of the main loop with the message `basis is constant` on the standard output, f4sat.c 598-602. -/
def isConst {n : ℕ} : SEnd n → Bool
  | .const => true
  | _ => false

/-- `msolve -S -g g` on an input file over a prime field writes `out` to the output file; `const` says whether the message `basis is constant` is written to the standard output,
the other messages there are left out (f4sat.c 97, 205-212: they appear also without `-v`).  The last polynomial of the file is the element, the others are the generators
(msolve.c 3678-3684, C15; 3701, the element is not normalised).  Primes with at most 16 bits are refused (3663-3666).  The order is the degree reverse lexicographic one; the
option `-e`, and `-i` with which nothing is computed and written (3692-3697), are left out.  The assumptions are those of `EndToEnd.Run`; a failing step is no execution. -/
def Run (g : ℤ) (input : List Char) (const : Bool) (out : List Char) : Prop :=
  ∃ (names : List (List Char)) (p : ℕ) (ps im : List (List (ℤ × List ℤ))) (ng : ℤ) (F0 F : List (Poly names.length)) (f : Poly names.length)
    (C : Cfg names.length) (e : SEnd names.length) (G : List (Poly names.length)),
    readFile input = some ⟨names, p, .ff ps⟩ ∧ ¬ ffBits p < 32 ∧ 0 < names.length ∧
    importGens (fun f => invalid (f.map Prod.fst)) 1 ps = .ok im ng ∧
    List.Forall₂ (ImportPoly names.length 0 p) im F0 ∧ F.Perm F0 ∧
    List.Forall₂ (ImportTbr names.length 0 p) (ps.drop (ps.length - 1)) [f] ∧
    C.ord = .drl ∧ C.p = p ∧ Sorts C ∧ SatResult C F f e G ∧ G ≠ [] ∧
    const = isConst e ∧ out = printSat names p g G

end Verif.EndToEndSat
