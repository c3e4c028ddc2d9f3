import Verif.Spec.ProblemQ

/-!
Specification: the comment before a printed Gröbner basis over the rationals.
-/
namespace Verif.Spec.Text

/-- `len` elements, in words. -/
def elementsText (len : ℕ) : String :=
  match len with
  | 1 => "1 element"
  | len => toString len ++ " elements sorted by increasing leading monomials"

/-- Seven lines beginning with `#`: a title, the characteristic, the variables, the monomial order and the number of elements between two rules. -/
def basisHeader (vars : List (List Char)) (len : ℕ) : List Char :=
  (["#Reduced Groebner basis data", "#---", "#field characteristic: 0", "#variable order:       " ++ String.ofList (List.intercalate [',', ' '] vars),
    "#monomial order:       graded reverse lexicographical", "#length of basis:      " ++ elementsText len, "#---"].map fun l => l.toList ++ ['\n']).flatten

/-- The same lines with another title. -/
def leadHeader (vars : List (List Char)) (len : ℕ) : List Char :=
  (["#Leading ideal data", "#---", "#field characteristic: 0", "#variable order:       " ++ String.ofList (List.intercalate [',', ' '] vars),
    "#monomial order:       graded reverse lexicographical", "#length of basis:      " ++ elementsText len, "#---"].map fun l => l.toList ++ ['\n']).flatten

end Verif.Spec.Text
