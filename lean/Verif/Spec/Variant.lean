import Verif.Spec.ProblemQ
import Mathlib.Logic.Equiv.Basic
import Mathlib.Data.Fin.Tuple.Basic

/-!
Specification: the polynomials of a file after a change of variables that keeps the solutions.
-/
namespace Verif.Spec.Text

/-- A system of polynomials over the rationals given by its terms: variables with different names, at least one polynomial, no polynomial without terms, no denominator
zero or repeated monomial. -/
structure SystemQ (names : List (List Char)) (tss : List (List Mon)) : Prop where
  some : names ≠ []
  nodup : names.Nodup
  polys : tss ≠ []
  terms : ∀ ts ∈ tss, ts ≠ []
  expanded : ∀ ts ∈ tss, ExpandedQ names.length ts

/-- Terms with the same coefficient and the exponents `u` instead of those of `t`. -/
structure SameBut (n n' : ℕ) (σ : (Fin n → ℕ) → Fin n' → ℕ) (t t' : Mon) : Prop where
  numer : t'.numer = t.numer
  denom : t'.denom = t.denom
  vec : t'.vec n' = σ (t.vec n)

/-- The polynomials `tss'` in `n'` variables are the polynomials `tss` in `n` variables, perhaps with two variables exchanged, or with an additional last variable and a linear form
`∑ v_j x_j` in which all coefficients differ from zero; variable `i` has become variable `τ i`. -/
inductive Variant (n : ℕ) (tss : List (List Mon)) : (n' : ℕ) → (Fin n → Fin n') → List (List Mon) → Prop
  | same : Variant n tss n id tss
  | swapped (a b : Fin n) {tss' : List (List Mon)} : List.Forall₂ (List.Forall₂ (SameBut n n fun u => u ∘ Equiv.swap a b)) tss tss' →
      Variant n tss n (Equiv.swap a b) tss'
  | form (v : Fin (n + 1) → ℤ) {tss' : List (List Mon)} {l : List Mon} : (∀ j, v j ≠ 0) →
      List.Forall₂ (List.Forall₂ (SameBut n (n + 1) fun u => Fin.snoc (α := fun _ => ℕ) u 0)) tss tss' →
      (l.map fun t => (t.numer, t.denom, t.vec (n + 1))) = List.ofFn (fun j : Fin (n + 1) => (v j, 1, Pi.single j 1)) →
      Variant n tss (n + 1) Fin.castSucc (tss' ++ [l])

end Verif.Spec.Text
