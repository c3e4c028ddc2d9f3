import Verif.SolveRandom

/-! The executions of a computation over a prime field that reach undefined behaviour. -/

namespace Verif.Solve

open Polynomial Verif.F4 Verif.Pairs Verif.Spec Verif.MulMatrix Verif.Fglm Verif.BM Verif.Hankel Verif.LinForms Verif.VarOrder Verif.Output
open Verif.ExportF4 (readGens Basis)
open Verif.Props (fieldPoly)

variable {n : ℕ}

/-- The computation `OutcomeV` can reach undefined behaviour: in the computation of the matrix, by a division by zero in characteristic 2
(fglm_core.c 772-779), by the use of a null pointer (msolve.c 2090), in `fglm`. -/
def UbV (p : ℕ) [Fact p.Prime] (us : ℤ) (chk : Bool) (G : List (Poly n)) (vecinit lam : ℕ → ZMod p) : Prop :=
  ¬ (G.length = 1 ∧ F4.lead (G.getD 0 []) = 0) ∧ Hilbert.hasDimensionZero (G.map F4.lead) = true ∧
  ∃ (fuel : ℕ) (lmb : List (Mon n)) (nf : List (Poly n) → List (Option (Poly n))) (last : Fin n),
    Hilbert.monomialBasis (G.map F4.lead) fuel = .done lmb ∧
    (∀ tbr, (∀ f ∈ tbr, InPoly p f) → NfRun .drl p G (List.range G.length) tbr (nf tbr)) ∧ last.val = n - 1 ∧
    (build p last us G lmb nf = .error .undef ∨
      ∃ M, build p last us G lmb nf = .ok M ∧ (p = 2 ∨ 1518500213 ≤ p ∨
        ∃ (ev0 : ℕ → ℕ) (vvec : ℕ → ZMod p) (hg : (ZMod p)[X] → (ZMod p)[X] → HM (ZMod p)) (sqf : List ((ZMod p)[X] × ℕ))
          (xg : (ZMod p)[X] → (ZMod p)[X] → (ZMod p)[X] × (ZMod p)[X] × (ZMod p)[X]),
          let P := fun i => fieldPoly p (G.getD i [])
          let V := minPoly hg ((M.toMat p).pts vecinit vvec) lmb.length
          let lv := linVars n G.length (fun i j => Orders.ext (Spec.lead (P i)) j)
          HgcdOk hg ∧ SqfOk V sqf ∧ XgcdOk xg ∧
          fglm lv.2 lv.1 (rows slotCheck n (fun j => (P j).map fun t => (Orders.setEv n 0 (Orders.ext t.1) ev0, t.2)) lv.1)
            (squVars lmb) ((M.toMat p).res vecinit vvec) ((M.toMat p).resSq vecinit vvec) (invert hg ((M.toMat p).pts vecinit vvec) lmb.length)
            V (sqfPart V lmb.length sqf) xg lam n lmb.length chk = none))

/-- The same for `AttemptV`. -/
def UbAttemptV (p : ℕ) [Fact p.Prime] (us : ℤ) (g : Gens) (chk : Bool) (vecinit lam : ℕ → ZMod p) : Prop :=
  ∃ (gens : List (List (ℤ × List ℤ))) (G : List (Poly g.nvars)), readGens g.nvars g.exps g.cfs 0 g.lens = some gens ∧
    Basis 0 0 p true gens G ∧ UbV p us chk G vecinit lam

end Verif.Solve
