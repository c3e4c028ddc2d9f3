import Mathlib.Algebra.MvPolynomial.Basic
import Mathlib.Data.ZMod.Basic

/-!
Specification: lists of polynomials in flat arrays, the data format of the library interface.
-/
namespace Verif.Spec

/-- The arrays `lens`, `exps`, `cfs`. -/
structure Arrays where
  lens : List ℕ
  exps : List ℤ
  cfs : List ℤ
  deriving DecidableEq

/-- The arrays for a list of polynomials, each a list of terms (coefficient and exponents): the numbers of terms, the exponents of all
terms one after the other, the coefficients of all terms one after the other. -/
def Arrays.of {n : ℕ} (fs : List (List (ℤ × (Fin n → ℕ)))) : Arrays where
  lens := fs.map List.length
  exps := fs.flatMap fun f => f.flatMap fun t => List.ofFn fun i => (t.2 i : ℤ)
  cfs := fs.flatMap fun f => f.map Prod.fst

/-- The polynomial over the integers modulo `p` given by a list of terms. -/
noncomputable def apoly {n : ℕ} (p : ℕ) (f : List (ℤ × (Fin n → ℕ))) : MvPolynomial (Fin n) (ZMod p) :=
  (f.map fun t => MvPolynomial.monomial (Finsupp.equivFunOnFinite.symm t.2) ((t.1 : ℤ) : ZMod p)).sum

/-- What is asked of the polynomials in the arrays: no polynomial without terms, no monomial twice, no coefficient that vanishes modulo `p`;
the coefficients are 32 bit integers not below `-p`, the degrees are below `2^16`. -/
structure ArraysOk {n : ℕ} (p : ℕ) (fs : List (List (ℤ × (Fin n → ℕ)))) : Prop where
  some : fs ≠ []
  terms : ∀ f ∈ fs, f ≠ []
  range : ∀ f ∈ fs, ∀ t ∈ f, -(p : ℤ) ≤ t.1 ∧ t.1 < 2 ^ 31
  coeff : ∀ f ∈ fs, ∀ t ∈ f, ¬ (p : ℤ) ∣ t.1
  distinct : ∀ f ∈ fs, (f.map Prod.snd).Nodup
  deg : ∀ f ∈ fs, ∀ t ∈ f, ∑ i, t.2 i < 65536

end Verif.Spec
