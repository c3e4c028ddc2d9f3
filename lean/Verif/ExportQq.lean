import Verif.EndToEndQq
import Verif.SolveQ

/-! Two further uses of `core_groebner_qq`, lifting-gb.c 1144-1501: the library function `export_groebner_qq` (1766-1860), which returns the lifted basis in
arrays, and `msolve -g 1`, which prints the leading monomials only. -/

namespace Verif.ExportQq

open Verif.Orders Verif.Import Verif.Parse Verif.F4 Verif.Spec Verif.EndToEnd Verif.EndToEndQq Verif.LiftStore
open Verif.SolveQ (readGensQ)

/-! ### The library function -/

/-- What the pointers `bld`, `blen`, `bexp`, `bcf` point to and the returned value of `export_results_from_groebner_qq`, lifting-gb.c 1503-1580. -/
structure Arrays where
  ld : ℕ
  lens : List ℕ
  exps : List ℕ
  cfs : List ℤ
  nterms : ℕ
  deriving DecidableEq

/-- `export_results_from_groebner_qq`, lifting-gb.c 1503-1580: the terms are those of `exportQq` (C63), the exponents of term `t` are `exp[t*nve..]`.
`none`: outside the arrays. -/
def exportArrays {n : ℕ} (e : ℕ) (b : Lifted n) : Option Arrays :=
  (exportQq e b.ldm b.mb b.npol b.polys).map fun r =>
    ⟨b.npol, r.1, r.2.flatMap fun t => List.ofFn t.1, r.2.map Prod.snd, r.1.sum⟩

/-- lifting-gb.c 1830-1858. -/
def returned {n : ℕ} (e : ℕ) : Res (Lifted n) → Res Arrays
  | .printed b =>
    match exportArrays e b with
    | some A => .printed A
    | none => .undefined
  | .stopped => .stopped
  | .undefined => .undefined

/-- `export_groebner_qq`, lifting-gb.c 1766-1860, on arrays with generators in `e + n` variables (`nr_gens = lens.length`), with `field_char = 0`, `mon_order = 0`,
`elim_block_len = e`, `nr_vars = e + n`, `truncate_lifting = 0`, `reduce_gb = 1`.  `undefined`: the arrays are too short, or all generators are invalid: then `return_zero`
(io.c 454-478) leaves the output pointers unassigned.  `stopped`: `exit`, 1824-1827, 1836-1839.  The allocation functions do not fail. -/
def RunA (E : LiftGB.Ext) (nt e n : ℕ) (lens : List ℕ) (exps cfs : List ℤ) (us : List ℕ) (r : Res Arrays) : Prop :=
  0 < n ∧
  match readGensQ (e + n) exps cfs 0 lens with
  | none => r = .undefined ∧ us = []
  | some ps =>
    match importGens invalidQ 0 ps with
    | .stop => r = .stopped ∧ us = []
    | .allInvalid => r = .undefined ∧ us = []
    | .ok im _ => ∃ Z b, Input e n im Z ∧ Core E nt e n Z none us b ∧ r = returned e b

/-! ### Leading monomials -/

/-- The comments before the leading monomials, lifting-gb.c 1702-1728. -/
def headerLm (names : List (List Char)) (e len : ℕ) : List Char :=
  "#Leading ideal data\n".toList ++ "#---\n".toList ++ "#field characteristic: 0\n".toList ++
  ("#variable order:       ".toList ++ List.intercalate [',', ' '] (names.drop e) ++ ['\n']) ++
  "#monomial order:       graded reverse lexicographical\n".toList ++
  (if len = 1 then "#length of basis:      1 element\n".toList
   else "#length of basis:      ".toList ++ Nat.toDigits 10 len ++ " elements sorted by increasing leading monomials\n".toList) ++
  "#---\n".toList

/-- `core_groebner_qq` with `print_gb = 1`: it returns after the first prime `p`, lifting-gb.c 1205-1239; the leading monomials are those of the basis modulo `p`, the lengths
those of `array_of_lengths` (683-692). -/
inductive CoreLm (e n : ℕ) (Z : List (List ((Fin (e + n) → ℕ) × ℤ))) : ℕ → Res (Lifted n) → Prop
  | first {tr p G mb} : FirstPrime Z p → First e Z none p tr G → enlarged (keptLeads e G) = .done mb →
      CoreLm e n Z p (.printed ⟨keptLeads e G, mb, (keptLeads e G).length,
        fun k => ⟨lensOf (keptLeads e G) mb k, fun _ _ => 0, fun _ => 0, fun _ => 0, fun _ => 0, 1⟩⟩)
  | undefined {tr p G} : FirstPrime Z p → First e Z none p tr G → enlarged (keptLeads e G) = .overflow →
      CoreLm e n Z p .undefined

/-- lifting-gb.c 1743-1752. -/
def printLm {n : ℕ} (names : List (List Char)) (e : ℕ) (b : Lifted n) : List Char :=
  headerLm names e b.npol ++ PrintQq.displayLeads names e b.ldm b.npol b.polys

/-- `msolve -g 1` with `-e e` on an input file over the rationals; as `EndToEndQq.Run`.  `us` holds the prime, if one is used. -/
def RunLm (e n : ℕ) (input : List Char) (us : List ℕ) (r : Res (List Char)) : Prop :=
  ∃ (names : List (List Char)) (ps : List (List ((ℤ × ℤ) × List ℤ))), readFile input = some ⟨names, 0, .qq ps⟩ ∧
    names.length = e + n ∧ 0 < n ∧
    match importGens invalidQ 0 ps with
    | .stop => r = .stopped ∧ us = []
    | .allInvalid => r = .undefined ∧ us = []
    | .ok im _ => ∃ Z p b, Input e n im Z ∧ CoreLm e n Z p b ∧ us = [p] ∧ r = b.map (printLm names e)

end Verif.ExportQq
