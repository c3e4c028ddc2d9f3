import Verif.ExportF4
import Verif.Output
import Verif.Props.Modular

/-!
The complete computation of the solutions over a prime field (`msolve -g 0` in positive characteristic, no elimination order): reading of the input,
F4, dimension, matrix of the multiplication, parametrization, restarts, printing.
Source: src/msolve/msolve.c 880-911, 1514-1648, 2060-2160, 3307-3420, 3508-3525, 4040-4148; src/fglm/fglm_core.c 867-957, 1231-1361, 1511-1700.
-/
namespace Verif.Solve

open Polynomial Verif.F4 Verif.Pairs Verif.Spec Verif.MulMatrix Verif.Fglm Verif.BM Verif.Hankel Verif.LinForms Verif.VarOrder Verif.Output
open Verif.ExportF4 (readGens Basis)
open Verif.Props (fieldPoly)

variable {n : ℕ}

/-- `check_and_set_vars_squared_in_monomial_basis`, msolve.c 888-911: the body of the loop over the monomial basis. -/
def squStep (lmb : List (Mon n)) (s : ℕ → ℕ) (i : ℕ) : ℕ → ℕ :=
  if ∑ j, (lmb.getD i 0) j = 2 then
    match (List.range (n - 1)).find? fun j => decide (Orders.ext (lmb.getD i 0) j = 2) with
    | some j => Function.update s j i
    | none => s
  else s

/-- `squvars`: the index of the square of a variable in the monomial basis, 0 if it is not there, msolve.c 888-911. -/
def squVars (lmb : List (Mon n)) : ℕ → ℕ := (List.range lmb.length).foldl (squStep lmb) fun _ => 0

section
variable {K : Type*} [Field K]

/-- The loop over the variables in `compute_parametrizations_non_shape_position_case`, fglm_core.c 1252-1287; `s.2` is `dec`. -/
noncomputable def tableStep (elim V Z2 : K[X]) (res : ℕ → ℕ → K) (linvars : ℕ → ℕ) (nv : ℕ) (s : (ℕ → K[X]) × ℕ) (nc : ℕ) :
    (ℕ → K[X]) × ℕ :=
  if linvars (nv - 2 - nc) = 0 then
    (Function.update s.1 (nv - 2 - nc) (coordTable elim V Z2 fun i => res i (nc + 1 - s.2)), s.2)
  else (Function.update s.1 (nv - 2 - nc) 0, s.2 + 1)

noncomputable def tableLoop (elim V Z2 : K[X]) (res : ℕ → ℕ → K) (linvars : ℕ → ℕ) (nv : ℕ) : ℕ → K[X] :=
  ((List.range (nv - 1)).foldl (tableStep elim V Z2 res linvars nv) (fun _ => 0, 0)).1

/-- The value of `dec` in the second loop, fglm_core.c 1338-1340. -/
def decAt (linvars : ℕ → ℕ) (nv nc : ℕ) : ℕ := ((List.range nc).filter fun j => decide (linvars (nv - 2 - j) ≠ 0)).length

/-- What a computation ends with.  `failed` is the return value 1 of `msolve_trace_qq`, `generic` the return value 2. -/
inductive Att (K : Type*) [Field K] where
  | empty
  | positive
  | ok (dquot : ℕ) (elim : K[X]) (coords : ℕ → K[X])
  | failed
  | generic

/-- `nmod_fglm_compute_trace_data` behind the computation of the minimal polynomial, fglm_core.c 1588-1690, with
`compute_parametrizations` (`params`) and `compute_parametrizations_non_shape_position_case`, 1231-1361; and the test of the squares in
`msolve_trace_qq`, msolve.c 2089-2098, which is done as long as `chk` (`round != 0`) holds.

`none`: undefined behaviour.  In shape position this is the read of `points->coeffs[2*dim]` in `invert_hankel_matrix` (C52) followed by the use of the null pointer; otherwise the
write of `coeffs[1]` for a coordinate that is zero, fglm_core.c 1262-1268, if the buffer has one element only. -/
noncomputable def fglm (nlins : ℕ) (linvars : ℕ → ℕ) (lineqs : ℕ → K) (squ : ℕ → ℕ) (res resSq : ℕ → ℕ → K) (inv : Hankel.Inv K)
    (V elim : K[X]) (xg : K[X] → K[X] → K[X] × K[X] × K[X]) (lam : ℕ → K) (nv dquot : ℕ) (chk : Bool) : Option (Att K) := by
  classical
  exact
    if elim.natDegree = dquot then
      (params inv dquot res nlins linvars lineqs nv elim).map fun r => .ok dquot r.1 r.2
    else match invTable xg elim V fun i => res i 0 with
      | none => some .failed
      | some Z2 =>
        let cs := tableLoop elim V Z2 res linvars nv
        if (∃ k, k < nv - 1 ∧ linvars k = 0 ∧ cs k = 0) ∧ elim.natDegree < 2 then none
        else if ∃ nc, nc < nv - 1 ∧ linvars (nv - 2 - nc) = 0 ∧ squ (nv - 2 - nc) ≠ 0 ∧
            ¬ verify xg elim V (cs (nv - 2 - nc)) (lam nc) (fun i => res i 0) (fun i => res i (nc + 1 - decAt linvars nv nc))
              (fun i => resSq i (squ (nv - 2 - nc))) then some .failed
        else
          let r := setLinear nlins linvars lineqs nv elim cs
          if r.1.natDegree ≠ dquot ∧ chk = true ∧ ∃ i, i < nv - 1 ∧ squ i = 0 then some .generic
          else some (.ok dquot r.1 r.2)

end

/-- `initial_modular_step`, msolve.c 1544-1648, behind the computation of the basis, for positive characteristic, and the end of `msolve_trace_qq`,
msolve.c 2089-2160.  `us` is the option `unstable_staircase`.  Random are `vecinit` and `lam`; `ev0`, `vvec` are former contents of the
memory; `hg`, `sqf`, `xg` are results of FLINT.  For characteristic 2 `generate_sequence_verif` divides by zero (fglm_core.c 772-779),
for `p >= 1518500213` a null pointer is returned with `success = 1` (1534-1538) and used (msolve.c 2090). -/
def Outcome (p : ℕ) [Fact p.Prime] (us : ℤ) (chk : Bool) (G : List (Poly n)) (a : Att (ZMod p)) : Prop :=
  if G.length = 1 ∧ F4.lead (G.getD 0 []) = 0 then a = .empty
  else if Hilbert.hasDimensionZero (G.map F4.lead) = false then a = .positive
  else ∃ (fuel : ℕ) (lmb : List (Mon n)) (nf : List (Poly n) → List (Option (Poly n))) (last : Fin n),
    Hilbert.monomialBasis (G.map F4.lead) fuel = .done lmb ∧
    (∀ tbr, (∀ f ∈ tbr, InPoly p f) → NfRun .drl p G (List.range G.length) tbr (nf tbr)) ∧ last.val = n - 1 ∧
    ((build p last us G lmb nf = .error .null ∧ a = .failed) ∨
      ∃ M, build p last us G lmb nf = .ok M ∧ p ≠ 2 ∧ p < 1518500213 ∧
        ∃ (ev0 : ℕ → ℕ) (vecinit vvec : ℕ → ZMod p) (hg : (ZMod p)[X] → (ZMod p)[X] → HM (ZMod p)) (sqf : List ((ZMod p)[X] × ℕ))
          (xg : (ZMod p)[X] → (ZMod p)[X] → (ZMod p)[X] × (ZMod p)[X] × (ZMod p)[X]) (lam : ℕ → ZMod p),
          let P := fun i => fieldPoly p (G.getD i [])
          let V := minPoly hg ((M.toMat p).pts vecinit vvec) lmb.length
          let lv := linVars n G.length (fun i j => Orders.ext (Spec.lead (P i)) j)
          HgcdOk hg ∧ SqfOk V sqf ∧ XgcdOk xg ∧ (∀ i, lam i ≠ 0) ∧
          fglm lv.2 lv.1 (rows slotCheck n (fun j => (P j).map fun t => (Orders.setEv n 0 (Orders.ext t.1) ev0, t.2)) lv.1)
            (squVars lmb) ((M.toMat p).res vecinit vvec) ((M.toMat p).resSq vecinit vvec) (invert hg ((M.toMat p).pts vecinit vvec) lmb.length)
            V (sqfPart V lmb.length sqf) xg lam n lmb.length chk = some a)

/-- One call of `real_msolve_qq`, msolve.c 3307-3420: import of the arrays, F4 with reduction of the basis (`initial_modular_step`, 1578), `Outcome`.
That the import adds `p` to negative coefficients in the array of the caller (C77) is left out: they only occur in the last polynomial, whose coefficients are replaced before the next
call, or stay the same modulo `p`. -/
def Attempt (p : ℕ) [Fact p.Prime] (us : ℤ) (g : Gens) (chk : Bool) (a : Att (ZMod p)) : Prop :=
  ∃ (gens : List (List (ℤ × List ℤ))) (G : List (Poly g.nvars)), readGens g.nvars g.exps g.cfs 0 g.lens = some gens ∧
    Basis 0 0 p true gens G ∧ Outcome p us chk G a

/-- The restarts of `core_msolve`, msolve.c 4085-4148: states of the generators and of `round != 0` (`round` starts with -1, line 3567, and is increased after a
return value 2 only, line 4133). -/
inductive Loop (handling : ℕ) (us : ℤ) (p : ℕ) [Fact p.Prime] (g0 : Gens) : Gens → Bool → List Result → Prop
  | start : Loop handling us p g0 g0 true []
  | failed {g g' : Gens} {chk : Bool} {rs : List Result} : Loop handling us p g0 g chk rs → Attempt p us g chk .failed →
      restart handling g .failed = some g' → Loop handling us p g0 g' chk (rs ++ [.failed])
  | generic {g g' : Gens} {chk : Bool} {rs : List Result} (d : List ℤ) : Loop handling us p g0 g chk rs → Attempt p us g chk .generic →
      Accepted p (g0.nvars + 1) d → restart handling g (.generic d) = some g' → Loop handling us p g0 g' false (rs ++ [.generic d])

/-- The arrays after reading the file, iofiles.c (C58). -/
def gensOf (names : List (List Char)) (p : ℕ) (ps : List (List (ℤ × List ℤ))) : Gens where
  nvars := names.length
  fc := p
  vnames := names.map String.ofList
  lens := ps.map List.length
  exps := ps.flatMap fun f => f.flatMap Prod.snd
  cfs := ps.flatMap fun f => f.map Prod.fst

/-- A list of coefficients of the polynomial; leading zeros are allowed (the coordinates are not always normalized by the code). -/
def Repr {p : ℕ} (f : (ZMod p)[X]) (l : List ℕ) : Prop := (∀ c ∈ l, c < p) ∧ ∀ i, ((l.getD i 0 : ℕ) : ZMod p) = f.coeff i

/-- The parametrization that is printed, msolve.c 2127-2136; the denominator is 1 (fglm_core.c 878, 891, 1056). -/
structure Shown {p : ℕ} (w : (ZMod p)[X]) (cs : ℕ → (ZMod p)[X]) (nv : ℕ) (D : ParamData) : Prop where
  elim : Repr w D.melim
  len : D.melim.length = w.natDegree + 1
  denom : D.mdenom = [1]
  coords : ∃ l, D.mcoords = some l ∧ l.length = nv - 1 ∧ ∀ k, k < nv - 1 → Repr (cs k) (l.getD k [])

/-- What `manage_output` prints, msolve.c 3508-3525; nothing for the return values 1 and 2. -/
def Prints {p : ℕ} [Fact p.Prime] (gp : ℕ) (g : Gens) (a : Att (ZMod p)) (out : List Char) : Prop :=
  match a with
  | .empty => ∃ D, displayOutput g 0 0 gp D [] = some out
  | .positive => ∃ D, displayOutput g 1 (-1) gp D [] = some out
  | .ok d w cs => ∃ D, Shown w cs g.nvars D ∧ displayOutput g 0 d gp D [] = some out
  | .failed => False
  | .generic => False

/-- `msolve` with the input file `input` prints `out`; `handling` is the option `-c` (2 by default), `gp` the option `-P`.  Executions without output (failure,
undefined behaviour, endless restarts) are no runs. -/
def Run (handling : ℕ) (us : ℤ) (gp : ℕ) (input out : List Char) : Prop :=
  ∃ (names : List (List Char)) (p : ℕ) (ps : List (List (ℤ × List ℤ))) (_ : Fact p.Prime) (g : Gens) (chk : Bool) (rs : List Result)
    (a : Att (ZMod p)), Parse.readFile input = some ⟨names, p, .ff ps⟩ ∧ Loop handling us p (gensOf names p ps) g chk rs ∧
      Attempt p us g chk a ∧ Prints gp g a out

end Verif.Solve
