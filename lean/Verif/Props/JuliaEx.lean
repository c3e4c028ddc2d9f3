import Verif.Props.Julia
import Verif.Props.SolveRealEx
import Verif.Props.SolveExists

/-!
A complete execution of `msolve_julia` for the polynomial `2 x - 1`.
-/
namespace Verif.Props
namespace Julia

open Verif.F4 Verif.Spec Verif.SolveQ Verif.Julia Verif.Spec.Julia Verif.Props.SolveQ Verif.Props.SolveReal Verif.Spec.Solutions
open Verif.Parse (qqPoly)
open Verif.Spec.Text (SystemQ idealQ Variant GoodPrime)
open MvPolynomial

theorem l_holds : Holds 1 lTerms [2] [1, 0] [2, 1, -1, 1] := ⟨by decide +kernel, by decide +kernel, by decide +kernel⟩

theorem l_call : ∃ o, Run 2 1 128 2 lNames [2] [1, 0] [2, 1, -1, 1] (lTerms.map (qqPoly 1)) [1073741827, 1073741831, 1073741833, 1073741839] (.ok o) ∧
    ∃ plens pcfs denom coords, o.lens = some plens ∧ o.cfs = some pcfs ∧ readParam plens pcfs = some ([-1, 2], denom, coords) ∧ o.dquot = 1 := by
  obtain ⟨m, hatt, hE⟩ := l_attempt 0
  have hg : gensOfArrays lNames [2] [1, 0] [2, 1, -1, 1] = gensOfQ lNames (lTerms.map (qqPoly 1)) := gens_arrays (names := lNames) l_holds
  obtain ⟨o, h1, -, -, -, h2, -, -, -, ⟨plens, pcfs, h3, h4, -, h5⟩, -⟩ := export_param (g := gensOfQ lNames (lTerms.map (qqPoly 1))) (nsols := 1) le_rfl one_pos m
    (lf := none) rfl (n := 1) (pts := []) (by simp)
  refine ⟨o, ⟨_, true, [], .ok 1 1 m, .start, ?_, ?_, [], rfl, ?_⟩, plens, pcfs, (paramData 1 1 m).denom, (paramData 1 1 m).coords.getD [], h3, h4, ?_, h2⟩
  · rw [hg]
    decide +kernel
  · rw [hg]
    exact hatt
  · rw [hg, h1]
    rfl
  · rw [h5]
    exact congrArg (fun e => some (e, (paramData 1 1 m).denom, (paramData 1 1 m).coords.getD [])) hE

/-- The hypotheses of `C84_solutions_partial` and `C84_ends_partial` are met: for the polynomial `2 x - 1` calls without and with real solutions return arrays with the
parametrization, the second one also one box, and it contains `1/2`. -/
example : ∃ o o', Run 2 1 128 2 lNames [2] [1, 0] [2, 1, -1, 1] (lTerms.map (qqPoly 1)) [1073741827, 1073741831, 1073741833, 1073741839] (.ok o) ∧
    Run 2 1 128 0 lNames [2] [1, 0] [2, 1, -1, 1] (lTerms.map (qqPoly 1)) [1073741827, 1073741831, 1073741833, 1073741839] (.ok o') ∧
    SystemQ lNames lTerms ∧ Holds 1 lTerms [2] [1, 0] [2, 1, -1, 1] ∧ ['A'] ∉ lNames ∧ (∀ nm ∈ lNames, '\x00' ∉ nm) ∧ Variant lNames.length lTerms 1 id lTerms ∧
    (∀ p ∈ [1073741827, 1073741831, 1073741833, 1073741839], GoodPrime (n := 1) OKind.drl.mo lTerms p) ∧
    [1073741827, 1073741831, 1073741833, 1073741839].Nodup ∧ idealQ 1 lTerms ≠ ⊤ ∧ Module.Finite ℚ (MvPolynomial (_root_.Fin 1) ℚ ⧸ idealQ 1 lTerms) ∧
    (∃ plens pcfs denom coords, o.lens = some plens ∧ o.cfs = some pcfs ∧ readParam plens pcfs = some ([-1, 2], denom, coords) ∧ o.dquot = 1 ∧
      ExactFor (idealQ 1 lTerms) [-1, 2] coords ∧ RootsApart [-1, 2] (max 128 128) ∧ o'.lens = o.lens ∧ o'.cfs = o.cfs) ∧
    o'.nsols = 1 ∧ ∃ num den, ∃ q : ℚ × ℚ, o'.num = some num ∧ o'.den = some den ∧ readPoints 1 1 num den = some [[q]] ∧ q.1 ≤ 1 / 2 ∧ 1 / 2 ≤ q.2 := by
  obtain ⟨o, h1, plens, pcfs, denom, coords, h2, h3, h4, h5⟩ := l_call
  have hv : Variant lNames.length lTerms 1 id lTerms := .same
  have hs : SystemQ lNames lTerms := systemQ lFile_ok
  obtain ⟨o', sols, h6, h7, h8, hdq, h9, h10⟩ := C84_ends_partial (names := lNames) hs l_holds h1 hv rfl l_good4 (by decide) h2 h3 h4 (by rw [h5]; rfl) (by norm_num)
    (l_exact _) (prec' := 128) (gp' := 0) (l_apart _) (by norm_num)
  obtain rfl := l_sols sols h9
  obtain ⟨d, pl, pc, el, dn, co, boxes, s1, s2, s3, s4, s5, s6, s7, s8, s9, s10, s11, s12, s13⟩ := C84_solutions_partial (names := lNames) hs (by decide) (by decide) l_holds h6 hv rfl
    l_good4 (by decide) l_top.1 l_top.2
  obtain rfl := Option.some.inj (h2.symm.trans (h7.symm.trans s5))
  obtain rfl := Option.some.inj (h3.symm.trans (h8.symm.trans s6))
  have he := h4.symm.trans s7
  simp only [Option.some.injEq, Prod.mk.injEq] at he
  obtain ⟨rfl, rfl, rfl⟩ := he
  have hd : d = 1 := by
    rw [h5, s2] at hdq
    exact_mod_cast hdq
  subst hd
  obtain ⟨last, w, c, -, -, -, hw, hL, -⟩ := s8.lifted rfl (by norm_num)
  have hdl : denom.length = 1 := by rw [hL.dlen, hw]
  obtain ⟨sols, t1, t2, t3⟩ := s13 (by norm_num) rfl (by norm_num) (l_exact _) (l_apart _)
  obtain rfl := l_sols sols t1
  have hin := t3 fun x _ k _ r _ _ j hj => absurd hj (by omega)
  obtain ⟨num, den, u1, u2, u3⟩ := s11 (by rw [h10]; exact one_pos)
  refine ⟨o, o', h1, h6, hs, l_holds, by decide, by decide, hv, l_good4, by decide, l_top.1, l_top.2, ⟨plens, pcfs, denom, coords, h2, h3, h4, h5, l_exact _, l_apart _, h7, h8⟩,
    h10, num, den, ?_⟩
  rw [h10] at u3
  cases hin with
  | cons hb ht =>
    cases ht
    rename_i b
    obtain ⟨hb1, hb2⟩ := hb
    obtain ⟨k, q, hk1, hk2, hk3, hk4⟩ := hb2 ⟨0, by decide⟩
    match b, hb1, hk2, u3 with
    | [q'], _, hk2, u3 =>
      have hk : k = 0 := by
        by_contra hne
        rw [List.getElem?_eq_none (by simp; omega)] at hk2
        simp at hk2
      subst hk
      obtain rfl : q' = q := by simpa using hk2
      replace hk3 : (q'.1 : ℝ) ≤ 1 / 2 := hk3
      replace hk4 : 1 / 2 ≤ (q'.2 : ℝ) := hk4
      have e : ((1 / 2 : ℚ) : ℝ) = 1 / 2 := by norm_num
      rw [← e] at hk3 hk4
      exact ⟨q', u1, u2, u3, by exact_mod_cast hk3, by exact_mod_cast hk4⟩

/-- The hypothesis of `C84_input` is met: `2/3 x + 1/2`. -/
example : ∀ f ∈ [[((2, 3), ![1]), ((1, 2), ![0])]], ∀ t ∈ (f : List ((ℤ × ℤ) × (_root_.Fin 1 → ℕ))), 0 < t.1.2 := by decide

/-- The hypotheses of `C84_unterminated` are met. -/
example : ∃ o, Run 2 1 128 2 lNames [2] [1, 0] [2, 1, -1, 1] (lTerms.map (qqPoly 1)) [1073741827, 1073741831, 1073741833, 1073741839] (.ok o) ∧
    SystemQ lNames lTerms ∧ Holds lNames.length lTerms [2] [1, 0] [2, 1, -1, 1] ∧ ∀ nm ∈ lNames, '\x00' ∉ nm :=
  let ⟨o, h, _⟩ := l_call
  ⟨o, h, systemQ lFile_ok, l_holds, by decide⟩

/-- The names that are returned after a linear form was added (`C84_added`): only the last one is terminated. -/
example : (buffers { nvars := 2, fc := 0, vnames := ["x", "A"], lens := [], exps := [], mpz := [], lfbc := 1 }).map Spec.Julia.cString = [none, some ['A']] := by
  decide +kernel

/-- The hypotheses of `C84_generic_undefined` are met for every state of the arrays. -/
example (g : VarOrder.Gens) : Returns 1 128 2 g .generic (.of (exportJ (if 0 ≤ g.cvo then (VarOrder.undo g).1 else g) { dim := 0, dquot := 2 } [])) :=
  ⟨by decide, 2, by decide, rfl⟩

/-- The hypotheses of `C84_prime_undefined` are met: `y^2 - 1` and `x - y` modulo 101. -/
example : have : Fact (Nat.Prime 101) := ⟨by norm_num⟩
    2 ≤ Verif.Props.EndToEnd.twoNames.length ∧ RunP 2 101 Verif.Props.EndToEnd.twoNames [2, 2] [0, 2, 0, 0, 1, 0, 0, 1] [1, 100, 1, 100] 2 .undefined := by
  intro hp
  refine ⟨by decide, ?_⟩
  obtain ⟨G, hB⟩ := Verif.Props.Solve.basis_exists (n := 2) (p := 101) (by norm_num) (by norm_num) (by norm_num) (Verif.Props.Solve.raw0_ok Verif.Props.Solve.sxFile_ok)
  obtain rfl := Verif.Props.Solve.sx_basis hB
  obtain ⟨w, cs, ho, -⟩ := Verif.Props.Solve.sx_outcome_of (us := 0) fun _ => rfl
  have hg : gensOfArraysP Verif.Props.EndToEnd.twoNames 101 [2, 2] [0, 2, 0, 0, 1, 0, 0, 1] [1, 100, 1, 100] =
      Verif.Solve.gensOf Verif.Props.EndToEnd.twoNames 101 (Verif.Props.Solve.sxTerms.map (Verif.Parse.ffPoly 2 101)) := by
    unfold gensOfArraysP Verif.Solve.gensOf
    congr 1
  refine ⟨_, true, [], w, cs, .start, ⟨_, _, ?_, hB, ho⟩, ?_⟩
  · rw [hg]
    exact Verif.Props.Solve.readGens_gensOf _ _ _
  · rfl

end Julia
end Verif.Props
