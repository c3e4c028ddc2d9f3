import Verif.Spec.CommandLine

/-!
Specification: command lines that ask for a computation, and where its result is found.
-/
namespace Verif.Spec.CommandLine

/-- The option `c` has the value `v`: it is given and its last value is `v`, or it is not given and `v` is the default. -/
def HasValue (os : List Occ) (c : Char) (dflt v : ℤ) : Prop :=
  (lastVal c os = none ∧ v = dflt) ∨ ∃ a, lastVal c os = some a ∧ IsNumber a v

/-- A command line that asks for a computation with the input file `fin` and the output file `fout` (`none`: standard output).  Every option may be given except those for
help and version, saturation, colon ideals, signatures, other linear algebra, truncated or lifted matrices, new hash tables and messages. -/
structure Request (os : List Occ) (fin : List Char) (fout : Option (List Char)) : Prop where
  help : .flag 'h' ∉ os
  version : .flag 'V' ∉ os
  saturate : .flag 'S' ∉ os
  colon : .flag 'C' ∉ os
  right : .wrong ∉ os
  file : lastVal 'f' os = some fin
  out : lastVal 'o' os = fout
  plain : ∀ c ∈ "qlNLuv".toList, lastVal c os = none

/-- A command line with `-S`, an output file, and without `-i`, `-e` and the options excluded in `Request`. -/
structure SatRequest (os : List Occ) (fin fo : List Char) : Prop where
  help : .flag 'h' ∉ os
  version : .flag 'V' ∉ os
  right : .wrong ∉ os
  saturate : .flag 'S' ∈ os
  gens : .flag 'i' ∉ os
  file : lastVal 'f' os = some fin
  out : lastVal 'o' os = some fo
  plain : ∀ c ∈ "eqlNLuv".toList, lastVal c os = none

/-- The text `out` is the only content of the output file, or all that is written to the standard output `so`; no other file is changed. -/
def Delivered (fout : Option (List Char)) (d d' : List Char → Option (List Char)) (so out : List Char) : Prop :=
  match fout with
  | none => so = out ∧ d' = d
  | some f => so = [] ∧ d' f = some out ∧ ∀ g, g ≠ f → d' g = d g

end Verif.Spec.CommandLine
