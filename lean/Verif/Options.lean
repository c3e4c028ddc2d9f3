import Verif.Parse

/-!
The command line: `getoptions` and the beginning of `main`, src/msolve/main.c 150-440.
-/
namespace Verif.Options

open Verif.Parse

/-! ### `getopt` of the C library -/

/-- Results of `getopt`: a letter with `optarg`, or `'?'` for an unknown letter or a missing argument. -/
inductive Item where
  | opt (c : Char) (arg : Option (List Char))
  | bad
  deriving DecidableEq

/-- `options`, main.c 184: whether a letter takes an argument; `none` for an unknown letter. -/
def kind (c : Char) : Option Bool :=
  if c ∈ ['h', 'i', 'S', 'C', 'V'] then some false
  else if c ∈ ['f', 'N', 'F', 'v', 'l', 't', 'e', 'o', 'O', 'u', 'I', 'p', 'P', 'L', 'q', 'g', 'c', 's', 'r', 'R', 'm', 'M', 'n', 'd'] then some true
  else none

/-- The letters behind one `-`; `next` is the following element of `argv`.  The second result is whether `next` is used as an argument. -/
def scan (next : Option (List Char)) : List Char → List Item × Bool
  | [] => ([], false)
  | c :: cs =>
    match kind c with
    | none => (.bad :: (scan next cs).1, (scan next cs).2)
    | some false => (.opt c none :: (scan next cs).1, (scan next cs).2)
    | some true =>
      if cs = [] then
        match next with
        | some a => ([.opt c (some a)], true)
        | none => ([.bad], false)
      else ([.opt c (some cs)], false)

/-- The calls of `getopt` of the GNU C library (the order of `argv` is changed, so words that are not options are skipped; `POSIXLY_CORRECT` is not set). -/
def getopt : List (List Char) → List Item
  | [] => []
  | a :: rest =>
    match a with
    | ['-', '-'] => []
    | '-' :: c :: cs =>
      let r := scan rest.head? (c :: cs)
      r.1 ++ getopt (if r.2 then rest.tail else rest)
    | _ => getopt rest
  termination_by l => l.length
  decreasing_by all_goals (simp_wf; try (split <;> simp <;> omega))

/-! ### The settings -/

/-- The variables of `main`, main.c 352-375, with their values; `refine` and `isolate` are not used. -/
structure Opts where
  la : ℤ := 2
  signatures : ℤ := 0
  threads : ℤ := 1
  info : ℤ := 0
  hts : ℤ := 17
  maxPairs : ℤ := 0
  elim : ℤ := 0
  updateHt : ℤ := 0
  reduceGb : ℤ := 1
  printGb : ℤ := 0
  truncate : ℤ := 0
  genericity : ℤ := 2
  staircase : ℤ := 2
  saturate : ℤ := 0
  colon : ℤ := 0
  normalForm : ℤ := 0
  nfMatrix : ℤ := 0
  isGb : ℤ := 0
  liftMatrix : ℤ := 0
  param : ℤ := 0
  precision : ℤ := 128
  inFile : Option (List Char) := none
  binFile : Option (List Char) := none
  outFile : Option (List Char) := none
  binOutFile : Option (List Char) := none
  deriving DecidableEq

/-- State of the loop: the settings, `fflag`, `errflag > 0`. -/
structure LoopSt where
  o : Opts := {}
  fflag : Bool := true
  err : Bool := false

/-- What `getoptions` does: it returns, or it ends the process after the help text or the version with status 0, or after a message with status 1. -/
inductive Res where
  | run (o : Opts)
  | help
  | version
  | noFile
  | usage
  deriving DecidableEq

def num (a : Option (List Char)) : ℤ := toInt32 (strtol (a.getD []))

/-- One iteration, main.c 186-324; `Sum.inr`: `exit(0)`. -/
def step (s : LoopSt) : Item → LoopSt ⊕ Res
  | .bad => .inl { s with err := true }
  | .opt c a =>
    let v := num a
    let o := s.o
    match c with
    | 'N' => .inl { s with o := { o with truncate := v } }
    | 'h' => .inr .help
    | 'V' => .inr .version
    | 'e' => .inl { s with o := { o with elim := if v < 0 then 0 else v } }
    | 'u' => .inl { s with o := { o with updateHt := v } }
    | 'p' => .inl { s with o := { o with precision := if v < 0 then 128 else v } }
    | 'q' => .inl { s with o := { o with signatures := if v < 0 then 0 else if 3 < v then 0 else v } }
    | 'R' => .inl s
    | 'i' => .inl { s with o := { o with isGb := 1 } }
    | 'I' => .inl s
    | 's' => .inl { s with o := { o with hts := v } }
    | 'S' => .inl { s with o := { o with saturate := 1 } }
    | 'C' => .inl { s with o := { o with colon := 1 } }
    | 'r' => .inl { s with o := { o with reduceGb := v } }
    | 'm' => .inl { s with o := { o with maxPairs := v } }
    | 'v' => .inl { s with o := { o with info := v } }
    | 'L' => .inl { s with o := { o with liftMatrix := v } }
    | 't' => .inl { s with o := { o with threads := v } }
    | 'l' => .inl { s with o := { o with la := v } }
    | 'f' => .inl { s with o := { o with inFile := a }, fflag := false }
    | 'F' => .inl { s with o := { o with binFile := a }, fflag := false }
    | 'o' => .inl { s with o := { o with outFile := a } }
    | 'O' => .inl { s with o := { o with binOutFile := a } }
    | 'P' => .inl { s with o := { o with param := if v ≤ 0 then 0 else v } }
    | 'g' => .inl { s with o := { o with printGb := if v < 0 then 0 else if 2 < v then 2 else v } }
    | 'c' => .inl { s with o := { o with genericity := if v < 0 then 0 else if 2 < v then 2 else v } }
    | 'd' => .inl { s with o := { o with staircase := if v < 0 then 0 else if 4 < v then 4 else v } }
    | 'n' => .inl { s with o := { o with normalForm := if v < 0 then 0 else v } }
    | 'M' => .inl { s with o := { o with nfMatrix := if v < 0 then 0 else v } }
    | _ => .inl { s with err := true }

/-- The loop, main.c 185-325. -/
def loop (s : LoopSt) : List Item → LoopSt ⊕ Res
  | [] => .inl s
  | i :: is =>
    match step s i with
    | .inl s' => loop s' is
    | .inr r => .inr r

/-- `getoptions`, main.c 150-340; `argv` without the name of the program. -/
def getoptions (argv : List (List Char)) : Res :=
  match loop {} (getopt argv) with
  | .inr r => r
  | .inl s => if s.fflag then .noFile else if s.err then .usage else .run s.o

/-- The linear algebra that is handed to `core_msolve`, main.c 432-438, for a file with characteristic `fc`. -/
def linearAlgebra (o : Opts) (fc : ℤ) : ℤ := if 0 < fc ∧ fc < 2 ^ 15 ∧ 2 < o.la then 2 else o.la

/-- What is on disk: the content of each file that can be opened for reading.  Two paths are the same file only if they are the same string. -/
abbrev Disk := List Char → Option (List Char)

/-- What happens up to the first access to the input, main.c 389-423: the input is read, or one of the two messages is printed (status 1), or there is an access through the null pointer
that the second `fopen` returns (iofiles.c, `get_nvars`). -/
inductive Start where
  | reads (content : List Char)
  | notFound
  | noOutput
  | null
  deriving DecidableEq

/-- main.c 389-423 with the disk afterwards; `fopen` with a null pointer fails.  `can`: the files that can be opened for writing. -/
def start (o : Opts) (d : Disk) (can : List Char → Bool) : Start × Disk :=
  if o.inFile.bind d = none ∧ o.binFile.bind d = none then (.notFound, d)
  else
    match o.outFile with
    | none =>
      match o.inFile.bind d with
      | some c => (.reads c, d)
      | none => (.null, d)
    | some f =>
      if can f then
        let d' : Disk := fun g => if g = f then some [] else d g
        match o.inFile.bind d' with
        | some c => (.reads c, d')
        | none => (.null, d')
      else (.noOutput, d)

end Verif.Options
