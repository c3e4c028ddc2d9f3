import Verif.Spec.Header

/-!
Specification: the comment before printed leading monomials over a prime field.
-/
namespace Verif.Spec.Text

/-- The order that eliminates the first `e` variables, in words. -/
def orderText (e : ℕ) : String :=
  match e with
  | 0 => "graded reverse lexicographical"
  | 1 => "eliminating first variable, blocks: graded reverse lexicographical"
  | e => "eliminating first " ++ toString e ++ " variables, blocks: graded reverse lexicographical"

/-- Seven lines beginning with `#`. -/
def leadHeaderMod (p e : ℕ) (vars : List (List Char)) (len : ℕ) : List Char :=
  (["#Leading ideal data", "#---", "#field characteristic: " ++ toString p, "#variable order:       " ++ String.ofList (List.intercalate [',', ' '] vars),
    "#monomial order:       " ++ orderText e, "#length of basis:      " ++ elementsText len, "#---"].map fun l => l.toList ++ ['\n']).flatten

end Verif.Spec.Text
