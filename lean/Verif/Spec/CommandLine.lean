import Verif.Spec.Text

/-!
Specification: how options are written on a command line, and what the help text says about their values.
-/
namespace Verif.Spec.CommandLine

/-- The options without and with a value. -/
def flags : List Char := "hiSCV".toList
def valued : List Char := "fNFvlteoOuIpPLqgcsrRmMnd".toList

/-- An option on the command line: a flag, an option with its value, or a mistake (an unknown letter, a missing value). -/
inductive Occ where
  | flag (c : Char)
  | val (c : Char) (a : List Char)
  | wrong
  deriving DecidableEq

/-- Letters that are written behind one dash and take no value. -/
inductive Letters : List Occ → List Char → Prop
  | nil : Letters [] []
  | flag {c os s} : c ∈ flags → Letters os s → Letters (.flag c :: os) (c :: s)
  | wrong {c os s} : c ∉ flags → c ∉ valued → Letters os s → Letters (.wrong :: os) (c :: s)

/-- How options are written: flags together behind one dash; a value in the same word or in the next word; other words anywhere; nothing counts behind `--`. -/
inductive Writes : List Occ → List (List Char) → Prop
  | nil : Writes [] []
  | stop (ws) : Writes [] (['-', '-'] :: ws)
  | word {w os ws} : (∀ c s, w ≠ '-' :: c :: s) → Writes os ws → Writes os (w :: ws)
  | letters {os s os' ws} : Letters os s → s ≠ [] → s ≠ ['-'] → Writes os' ws → Writes (os ++ os') (('-' :: s) :: ws)
  | next {os s c a os' ws} : Letters os s → c ∈ valued → Writes os' ws → Writes (os ++ .val c a :: os') (('-' :: (s ++ [c])) :: a :: ws)
  | same {os s c a os' ws} : Letters os s → c ∈ valued → a ≠ [] → Writes os' ws → Writes (os ++ .val c a :: os') (('-' :: (s ++ c :: a)) :: ws)
  | missing {os s c} : Letters os s → c ∈ valued → Writes (os ++ [.wrong]) ['-' :: (s ++ [c])]

/-- The last value that is given for a letter. -/
def lastVal (c : Char) : List Occ → Option (List Char)
  | [] => none
  | o :: os => (lastVal c os).or (match o with | .val c' a => if c' = c then some a else none | _ => none)

/-- A value is a number of 32 bits in decimal notation. -/
def IsNumber (a : List Char) (v : ℤ) : Prop :=
  -2 ^ 31 ≤ v ∧ v < 2 ^ 31 ∧ ∃ ds, Text.Digits ds ∧ ((a = ds ∧ v = Text.dec ds) ∨ (a = '-' :: ds ∧ v = -(Text.dec ds : ℤ)))

/-- A setting `x` follows the option `c`: the default without the option, and `f v` if the last value is the number `v`. -/
def Follows (os : List Occ) (c : Char) (dflt : ℤ) (f : ℤ → ℤ) (x : ℤ) : Prop :=
  (lastVal c os = none → x = dflt) ∧ ∀ a v, lastVal c os = some a → IsNumber a v → x = f v

/-- A setting is switched on by the flag `c`. -/
def Switched (os : List Occ) (c : Char) (x : ℤ) : Prop := x = if Occ.flag c ∈ os then 1 else 0

end Verif.Spec.CommandLine
