import Verif.Spec.JuliaArrays

/-!
Specification: the arrays in which a library function returns a Gröbner basis over the rationals.
-/
namespace Verif.Spec.Julia

open Verif.Spec.Text

/-- The arrays hold the polynomials `tls` with integer coefficients in the last `n` of `e + n` variables: the numbers of terms, the exponents of
all terms one after the other, those of the first `e` variables being zero, and one coefficient for every term. -/
structure HoldsZ (e n : ℕ) (tls : List (List Mon)) (lens exps : List ℕ) (cfs : List ℤ) : Prop where
  lens : lens = tls.map List.length
  exps : exps = tls.flatten.flatMap fun t => List.replicate e 0 ++ List.ofFn fun i : Fin n => t.vec n i
  cfs : cfs = tls.flatten.map fun t => t.numer

end Verif.Spec.Julia
