import Verif.Spec.Groebner

/-! Specification only: saturation of an ideal by an element. -/

namespace Verif.Spec

open MvPolynomial

variable {n : Nat} {K : Type*} [Field K]

/-- `h` lies in `I : f^∞`. -/
def InSat (I : Ideal (MvPolynomial (Fin n) K)) (f h : MvPolynomial (Fin n) K) : Prop := ∃ k : ℕ, f ^ k * h ∈ I

/-- `J = I : f^∞`. -/
def IsSaturation (I : Ideal (MvPolynomial (Fin n) K)) (f : MvPolynomial (Fin n) K)
    (J : Ideal (MvPolynomial (Fin n) K)) : Prop := ∀ h, h ∈ J ↔ InSat I f h

/-- `J` lies between `I` and `I : f^∞`. -/
def Between (I : Ideal (MvPolynomial (Fin n) K)) (f : MvPolynomial (Fin n) K)
    (J : Ideal (MvPolynomial (Fin n) K)) : Prop := (∀ h ∈ I, h ∈ J) ∧ ∀ h ∈ J, InSat I f h

end Verif.Spec
