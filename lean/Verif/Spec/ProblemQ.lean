import Verif.Spec.Problem
import Verif.Spec.Groebner
import Verif.Spec.Reduction
import Mathlib.Algebra.Field.ZMod
import Mathlib.Data.Rat.Cast.Defs
import Mathlib.Algebra.Field.Rat
import Mathlib.RingTheory.Ideal.Span

/-!
Specification: the polynomial over the rationals that a text stands for.
-/
namespace Verif.Spec.Text

open MvPolynomial

/-- A term as a polynomial over the rationals. -/
noncomputable def Mon.polyQ (n : ℕ) (t : Mon) : MvPolynomial (Fin n) ℚ :=
  monomial (Finsupp.equivFunOnFinite.symm (t.vec n)) ((t.numer : ℚ) / (t.denom : ℚ))

/-- A polynomial that is written as a list of terms. -/
noncomputable def polyQ (n : ℕ) (ts : List Mon) : MvPolynomial (Fin n) ℚ := (ts.map (Mon.polyQ n)).sum

/-- The polynomial is expanded: no monomial occurs twice, no coefficient is zero, no denominator is zero; the degrees are below
`2^16`. -/
structure ExpandedQ (n : ℕ) (ts : List Mon) : Prop where
  numer : ∀ t ∈ ts, t.numer ≠ 0
  denom : ∀ t ∈ ts, t.denom ≠ 0
  distinct : (ts.map (Mon.vec n)).Nodup
  deg : ∀ t ∈ ts, ∑ i, t.vec n i < 65536

/-- The ideal generated by polynomials over the rationals. -/
noncomputable def idealQ (n : ℕ) (tss : List (List Mon)) : Ideal (MvPolynomial (Fin n) ℚ) :=
  Ideal.span { q | ∃ ts ∈ tss, q = polyQ n ts }

/-- A polynomial that is written as a list of terms, modulo a prime number. -/
noncomputable def polyMod (p : ℕ) [Fact p.Prime] (n : ℕ) (ts : List Mon) : MvPolynomial (Fin n) (ZMod p) :=
  (ts.map fun t => monomial (Finsupp.equivFunOnFinite.symm (t.vec n)) ((t.numer : ZMod p) / (t.denom : ZMod p))).sum

/-- The prime `p` is lucky for polynomials over the rationals: it divides no numerator and no denominator of them, no
denominator of their reduced Gröbner basis, and modulo `p` the reduced Gröbner basis is the one of the polynomials modulo `p`. -/
def LuckyPrime {n : ℕ} (m : MonomialOrder (Fin n)) (tss : List (List Mon)) (p : ℕ) : Prop :=
  ∀ _ : Fact p.Prime, (∀ ts ∈ tss, ∀ t ∈ ts, ¬ (p : ℤ) ∣ t.numer ∧ ¬ (p : ℤ) ∣ t.denom) ∧
    ∀ G, IsReducedGroebner m (idealQ n tss) G → (∀ g ∈ G, IntegralAt p g) ∧
      IsReducedGroebner m (Ideal.span { q | ∃ ts ∈ tss, q = polyMod p n ts }) (reduceMod p '' G)

end Verif.Spec.Text
