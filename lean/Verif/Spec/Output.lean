import Mathlib.Data.Rat.Defs
import Mathlib.Algebra.Field.Rat

/-!
Specification: reading of the printed solutions.  The text is a nested list of numbers `a`, `a / b`, `a / b^k` and of names in
quotes, with spaces and line breaks between the entries, and ends with a colon and a line break.
-/
namespace Verif.Spec.Output

inductive Tree where
  | num (q : ℚ)
  | str (s : List Char)
  | list (l : List Tree)

/-- The state of the reader within an entry. -/
inductive Mode where
  /-- behind an opening bracket -/
  | first
  /-- behind a comma, or at the beginning -/
  | entry
  /-- behind a minus sign -/
  | minus
  /-- within a number -/
  | int (neg : Bool) (n : ℕ)
  /-- behind a number -/
  | rat (a : ℤ)
  /-- behind the slash -/
  | slash (a : ℤ)
  /-- within the denominator -/
  | den (a : ℤ) (b : ℕ)
  /-- behind the sign of a power -/
  | caret (a : ℤ) (b : ℕ)
  /-- within the exponent -/
  | pow (a : ℤ) (b k : ℕ)
  /-- within a name, in reverse order -/
  | name (s : List Char)
  /-- behind a complete entry -/
  | done (t : Tree)

def signed (neg : Bool) (n : ℕ) : ℤ := if neg then -n else n

/-- The entry that is complete in this state. -/
def Mode.value : Mode → Option Tree
  | .int neg n => some (.num (signed neg n))
  | .rat a => some (.num a)
  | .den a b => some (.num (a / b))
  | .pow a b k => some (.num (a / (b : ℚ) ^ k))
  | .done t => some t
  | _ => none

/-- The reader: the state, the entries of the list that is read, in reverse order, and those of the lists around it. -/
structure St where
  mode : Mode
  frame : List Tree
  outer : List (List Tree)

def St.close (s : St) (l : List Tree) : Option St :=
  match s.outer with
  | [] => none
  | f :: o => some ⟨.done (.list l.reverse), f, o⟩

def digit (c : Char) : ℕ := c.toNat - '0'.toNat

def Mode.digit (d : ℕ) : Mode → Option Mode
  | .first | .entry => some (.int false d)
  | .minus => some (.int true d)
  | .int neg n => some (.int neg (10 * n + d))
  | .slash a => some (.den a d)
  | .den a b => some (.den a (10 * b + d))
  | .caret a b => some (.pow a b d)
  | .pow a b k => some (.pow a b (10 * k + d))
  | _ => none

def Mode.space : Mode → Option Mode
  | .int neg n => some (.rat (signed neg n))
  | .den a b => some (.done (.num (a / b)))
  | .pow a b k => some (.done (.num (a / (b : ℚ) ^ k)))
  | .minus | .caret _ _ | .name _ => none
  | m => some m

/-- One character. -/
def St.step (s : St) (c : Char) : Option St :=
  match s.mode with
  | .name cs => some (if c = '\'' then { s with mode := .done (.str cs.reverse) } else { s with mode := .name (c :: cs) })
  | m =>
    if c = ',' then m.value.map fun t => ⟨.entry, t :: s.frame, s.outer⟩
    else if c = ']' then
      match m with
      | .first => s.close []
      | m => m.value.bind fun t => s.close (t :: s.frame)
    else if c = '[' then
      match m with
      | .first | .entry => some ⟨.first, [], s.frame :: s.outer⟩
      | _ => none
    else if c = '\'' then
      match m with
      | .first | .entry => some { s with mode := .name [] }
      | _ => none
    else if c = '-' then
      match m with
      | .first | .entry => some { s with mode := .minus }
      | _ => none
    else if c = '/' then
      match m with
      | .int neg n => some { s with mode := .slash (signed neg n) }
      | .rat a => some { s with mode := .slash a }
      | _ => none
    else if c = '^' then
      match m with
      | .den a b => some { s with mode := .caret a b }
      | _ => none
    else if c = ' ' ∨ c = '\n' then m.space.map fun m => { s with mode := m }
    else if c.isDigit then (m.digit (digit c)).map fun m => { s with mode := m }
    else none

/-- The result printed as `s`. -/
def readOutput (s : List Char) : Option Tree :=
  if s.drop (s.length - 2) = [':', '\n'] then
    match (s.take (s.length - 2)).foldlM St.step ⟨.entry, [], []⟩ with
    | some ⟨m, [], []⟩ => m.value
    | _ => none
  else none

/-! The contents of the output. -/

def ints (l : List ℤ) : Tree := .list (l.map fun a : ℤ => .num (a : ℚ))

/-- A polynomial in one variable: degree and coefficients; the degree of zero is -1. -/
def poly (l : List ℤ) : Tree := .list [.num ((l.length : ℤ) - 1 : ℤ), if l = [] then ints [0] else ints l]

/-- An interval. -/
def box (lo hi : ℚ) : Tree := .list [.num lo, .num hi]

/-- The list of the real solutions: boxes of dimension `n`. -/
def points (l : List (List (ℚ × ℚ))) : Tree := .list [.num 1, .list (l.map fun b => .list (b.map fun q => box q.1 q.2))]

end Verif.Spec.Output
