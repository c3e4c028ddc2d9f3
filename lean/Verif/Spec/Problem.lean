import Mathlib.Algebra.MvPolynomial.Basic
import Mathlib.Data.ZMod.Basic
import Verif.Spec.Text

/-!
Specification: the polynomial that a text stands for.
-/
namespace Verif.Spec.Text

open MvPolynomial

/-- The exponents of the variables in a term. -/
def Mon.vec (n : ℕ) (t : Mon) : Fin n → ℕ := fun i => t.expo i

/-- A term without denominator as a polynomial over the integers modulo `p`. -/
noncomputable def Mon.poly (p n : ℕ) (t : Mon) : MvPolynomial (Fin n) (ZMod p) :=
  monomial (Finsupp.equivFunOnFinite.symm (t.vec n)) ((t.numer : ℤ) : ZMod p)

/-- A polynomial that is written as a list of terms. -/
noncomputable def poly (p n : ℕ) (ts : List Mon) : MvPolynomial (Fin n) (ZMod p) := (ts.map (Mon.poly p n)).sum

/-- The polynomial is expanded: no monomial occurs twice, no coefficient vanishes modulo `p`; the degrees are below `2^16`. -/
structure Expanded (p n : ℕ) (ts : List Mon) : Prop where
  coeff : ∀ t ∈ ts, ¬ (p : ℤ) ∣ t.numer
  distinct : (ts.map (Mon.vec n)).Nodup
  deg : ∀ t ∈ ts, ∑ i, t.vec n i < 65536

end Verif.Spec.Text
