import Mathlib.Data.List.Basic
import Mathlib.Data.Rat.Defs

/-!
Specification: the text of a polynomial and of an input file.
-/
namespace Verif.Spec.Text

/-- The number written with the decimal digits `ds`. -/
def dec (ds : List Char) : ℕ := Nat.ofDigitChars 10 ds 0

/-- A numeral: digits, possibly followed by a slash and digits. -/
structure Num where
  n : List Char
  d : Option (List Char) := none
  deriving DecidableEq

/-- A factor: the index of a variable, possibly with an exponent. -/
structure Fac where
  v : ℕ
  e : Option (List Char) := none
  deriving DecidableEq

/-- A term: sign, possibly a numeral, factors. -/
structure Mon where
  neg : Bool := false
  num : Option Num := none
  fs : List Fac := []
  deriving DecidableEq

def Num.text (a : Num) : List Char := a.n ++ match a.d with | none => [] | some d => '/' :: d
def Fac.text (names : List (List Char)) (f : Fac) : List Char :=
  names.getD f.v [] ++ match f.e with | none => [] | some ds => '^' :: ds
/-- The pieces between the stars. -/
def Mon.pieces (names : List (List Char)) (t : Mon) : List (List Char) :=
  (t.num.map Num.text).toList ++ t.fs.map (Fac.text names)
def Mon.body (names : List (List Char)) (t : Mon) : List Char := List.intercalate ['*'] (t.pieces names)
/-- A polynomial: the sign of the first term is written only if it is a minus. -/
def line (names : List (List Char)) : List Mon → List Char
  | [] => []
  | t :: ts => (if t.neg then ['-'] else []) ++ t.body names ++
      ts.flatMap fun t => (if t.neg then '-' else '+') :: t.body names

/-- Numerator and denominator that a term is written with. -/
def Mon.numer (t : Mon) : ℤ := (if t.neg then -1 else 1) * (match t.num with | none => 1 | some a => (dec a.n : ℤ))
def Mon.denom (t : Mon) : ℤ := match t.num with | none => 1 | some a => match a.d with | none => 1 | some d => (dec d : ℤ)
/-- The exponent of variable `k` that a term is written with. -/
def Mon.expo (t : Mon) (k : ℕ) : ℕ :=
  ((t.fs.filter fun f => f.v = k).map fun f => match f.e with | none => 1 | some ds => dec ds).sum

def Digits (ds : List Char) : Prop := ds ≠ [] ∧ ∀ c ∈ ds, c.isDigit = true
/-- The white space characters of C. -/
def isSpace (c : Char) : Bool := c = ' ' || (9 ≤ c.toNat && c.toNat ≤ 13)
/-- Names: not empty, not beginning with a digit, without white space and the characters with a meaning. -/
def Name (nm : List Char) : Prop :=
  nm ≠ [] ∧ (∀ c l, nm = c :: l → c.isDigit = false) ∧ ∀ c ∈ nm, c ∉ ['*', '^', '+', '-', ','] ∧ isSpace c = false
/-- A term of the grammar, whose exponents fit into 32 bits and in which no variable occurs twice. -/
structure Mon.Ok (names : List (List Char)) (t : Mon) : Prop where
  some : t.num ≠ none ∨ t.fs ≠ []
  num : ∀ a, t.num = Option.some a → Digits a.n ∧ ∀ d, a.d = Option.some d → Digits d
  vars : ∀ f ∈ t.fs, f.v < names.length
  exps : ∀ f ∈ t.fs, ∀ ds, f.e = Option.some ds → Digits ds ∧ dec ds < 2 ^ 31
  nodup : (t.fs.map (·.v)).Nodup

/-- The polynomial over the integers modulo `p` that is written: a term with coefficient congruent to the written one. -/
def Reads (p n : ℕ) (r : ℤ × List ℤ) (t : Mon) : Prop :=
  0 ≤ r.1 ∧ (r.1 - t.numer) % p = 0 ∧ r.2.length = n ∧ ∀ k, k < n → r.2[k]? = some (t.expo k : ℤ)
/-- The polynomial over the rationals that is written: numerator and denominator. -/
def ReadsQ (n : ℕ) (r : (ℤ × ℤ) × List ℤ) (t : Mon) : Prop :=
  r.1 = (t.numer, t.denom) ∧ r.2.length = n ∧ ∀ k, k < n → r.2[k]? = some (t.expo k : ℤ)

/-- A text with spaces inserted, on one line and without comma. -/
def Spaced (s l : List Char) : Prop := s.filter (fun c => c ≠ ' ' && c ≠ '\r') = l ∧ '\n' ∉ s ∧ ',' ∉ s
/-- A name with white space around it, on one line. -/
def Padded (s nm : List Char) : Prop :=
  ∃ a b, s = a ++ nm ++ b ∧ (∀ c ∈ a, isSpace c = true ∧ c ≠ '\n') ∧ ∀ c ∈ b, isSpace c = true ∧ c ≠ '\n'

/-- The numerals that are read correctly as the first coefficient over a prime field. -/
def FirstNum (t : Mon) : Prop := ∀ a, t.num = some a → a.d = none ∧ dec a.n < 2 ^ 31 ∧ (t.neg = true → dec a.n ≠ 0)
/-- The numerals that are read correctly as another coefficient over a prime field. -/
def InnerNum (t : Mon) : Prop := ∀ a, t.num = some a → a.d = none ∧ dec a.n < 2 ^ 63 - 1 ∧ dec a.n ≠ 0

/-- The longest term that fits into the buffer, without sign and comma. -/
def Fits (names : List (List Char)) (t : Mon) : Prop := (t.body names).length + 3 < 50000

/-- An input file: the names on the first line, the characteristic on the second one, then one polynomial per line with commas
at the ends of the lines, except for the last one. -/
structure File where
  names : List (List Char)
  char : List Char
  polys : List (List Char)
  fin : List Char
def File.text (f : File) : List Char :=
  List.intercalate [','] f.names ++ '\n' :: (f.char ++ '\n' :: (List.intercalate [',', '\n'] f.polys ++ f.fin))

/-- What the theorems about files assume of a file. -/
structure FileOk (f : File) (names : List (List Char)) (p : ℕ) (tss : List (List Mon)) : Prop where
  name : ∀ nm ∈ names, Name nm
  nodup : names.Nodup
  some : names ≠ []
  padded : List.Forall₂ Padded f.names names
  short : ∀ s ∈ f.names, s.length ≤ 47
  char : ∃ ds b, f.char = ds ++ b ∧ Digits ds ∧ dec ds = p ∧ ∀ c ∈ b, isSpace c = true ∧ c ≠ '\n'
  small : p < 2 ^ 31
  polys : tss ≠ []
  spaced : List.Forall₂ (fun s ts => Spaced s (line names ts)) f.polys tss
  fin : ∀ c ∈ f.fin, c = ' ' ∨ c = '\r' ∨ c = '\n'
  terms : ∀ ts ∈ tss, ts ≠ []
  ok : ∀ ts ∈ tss, ∀ t ∈ ts, t.Ok names
  fits : ∀ ts ∈ tss, ∀ t ∈ ts, Fits names t

end Verif.Spec.Text
