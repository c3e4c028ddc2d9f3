import Verif.EndToEnd

/-! `msolve -g 1` over a prime field: the path of EndToEnd.lean, but `print_ff_basis_data` (iofiles.c 339-360) prints only the leading monomials. -/

namespace Verif.EndToEnd

open Verif.Orders Verif.Import Verif.Normalize Verif.Parse Verif.F4 Verif.Spec

/-- The comments before the leading monomials, iofiles.c 174-207 with `lead_ideal_only = 1`. -/
def headerLead (names : List (List Char)) (p nev len : ℕ) : List Char :=
  "#Leading ideal data\n".toList ++ "#---\n".toList ++
  ("#field characteristic: ".toList ++ Nat.toDigits 10 p ++ ['\n']) ++
  ("#variable order:       ".toList ++ List.intercalate [',', ' '] names ++ ['\n']) ++
  (if nev = 0 then "#monomial order:       graded reverse lexicographical\n".toList
   else if nev = 1 then "#monomial order:       eliminating first variable, blocks: graded reverse lexicographical\n".toList
   else "#monomial order:       eliminating first ".toList ++ Nat.toDigits 10 nev ++
    " variables, blocks: graded reverse lexicographical\n".toList) ++
  (if len = 1 then "#length of basis:      1 element\n".toList
   else "#length of basis:      ".toList ++ Nat.toDigits 10 len ++ " elements sorted by increasing leading monomials\n".toList) ++
  "#---\n".toList

/-- The loop behind the first factor, iofiles.c 241-245. -/
def leadRest (l : List (List Char × ℕ)) : List Char :=
  l.flatMap fun x => if 0 < x.2 then '*' :: x.1 ++ '^' :: Nat.toDigits 10 x.2 else []

/-- The loop up to the first factor, iofiles.c 232-240. -/
def leadFirst : List (List Char × ℕ) → List Char
  | [] => []
  | x :: l => if 0 < x.2 then x.1 ++ '^' :: Nat.toDigits 10 x.2 ++ leadRest l else leadFirst l

/-- The loop over the basis, iofiles.c 226-252; an empty list is a basis element `NULL`, behind which no bracket is closed. -/
def printLeads (names : List (List Char)) (ebl : ℕ) : List (List (ℕ × List ℕ)) → List Char
  | [] => []
  | [] :: r => '0' :: ',' :: '\n' :: printLeads names ebl r
  | [(_, e) :: _] => leadFirst (names.zip (exponentsOf ebl e)) ++ [']', ':', '\n']
  | ((_, e) :: _) :: r => leadFirst (names.zip (exponentsOf ebl e)) ++ [',', '\n'] ++ printLeads names ebl r

/-- `print_ff_basis_data` with `print_gb = 1`, iofiles.c 157-252, 339-360. -/
def printLead (names : List (List Char)) (p nev : ℕ) (G : List (Poly names.length)) : List Char :=
  headerLead names p nev G.length ++ '[' :: printLeads names (ebl nev) (G.map (stored nev))

/-- `msolve -g 1 -e nev` on an input file over a prime field prints `out`; see `Run`. -/
def RunLead (nev : ℕ) (input out : List Char) : Prop :=
  ∃ (names : List (List Char)) (p : ℕ) (ps im : List (List (ℤ × List ℤ))) (ng : ℤ) (F0 F : List (Poly names.length))
    (C : Cfg names.length) (s : F4.St names.length) (G : List (Poly names.length)),
    readFile input = some ⟨names, p, .ff ps⟩ ∧ nev < names.length ∧
    importGens (fun f => invalid (f.map Prod.fst)) 0 ps = .ok im ng ∧
    List.Forall₂ (ImportPoly names.length nev p) im F0 ∧ F.Perm F0 ∧
    C.ord = ordKind nev ∧ C.p = p ∧ Sorts C ∧ Reach C F s ∧ done s ∧ Final C s G ∧
    out = printLead names p nev G

end Verif.EndToEnd
