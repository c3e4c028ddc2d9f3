import Mathlib.Data.List.Basic

/-! Specification only: what a batch of modular computations should leave behind. -/

namespace Verif.Spec

/-- What the computations modulo one prime give when run alone: F4 with the trace rejects the prime (with an error
code), or a later step fails, or there is an image. -/
inductive Job (α : Type) where
  | rejected (code : Nat) (h : 0 < code)
  | failed
  | image (a : α)

/-- For each prime: marked as bad exactly if there is no image, and otherwise the image is there. -/
def BatchOk {α : Type} {m : Nat} (job : Fin m → Job α) (bad : Fin m → Bool) (res : Fin m → Option α) : Prop :=
  ∀ i, match job i with
    | .rejected _ _ => bad i = true
    | .failed => bad i = true
    | .image a => bad i = false ∧ res i = some a

end Verif.Spec
