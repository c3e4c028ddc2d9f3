import Verif.Props.SolveReal
import Verif.Props.SolveQEx

/-!
C81: an execution that prints the real solutions, from the input file to the printed text.
-/
namespace Verif.Props
namespace SolveQ

open Verif.F4 Verif.Spec Verif.Spec.Solutions
open Verif.Spec.Output (readOutput Tree points)
open Verif.Spec.Text (File idealQ Variant GoodPrime)
open Verif.Parse (qqPoly)
open Verif.Props.EndToEndQq (InputOkQ)
open MvPolynomial

theorem l_ideal : idealQ 1 lTerms = Ideal.span {lin (-1 / 2 : ℚ)} := by
  obtain ⟨u, hu⟩ := lTerms_poly ℚ two_ne_zero
  have : idealQ 1 lTerms = Ideal.span {u.1 * lin (-1 / 2 : ℚ)} := by rw [← hu]; rfl
  rw [this, Ideal.span_singleton_mul_left_unit u.isUnit]

theorem lin_aeval {L : Type*} [Field L] [Algebra ℚ L] (z : _root_.Fin 1 → L) : aeval z (lin (-1 / 2 : ℚ)) = z 0 - 1 / 2 := by
  have : algebraMap ℚ L (-1 / 2) = -1 / 2 := by simp
  simp [lin, aeval_monomial, fs, Finsupp.prod_fintype, this]
  ring

theorem l_shape : Shape (idealQ 1 lTerms) 0 (Polynomial.X + Polynomial.C (-1 / 2 : ℚ)) (fun _ => 0) where
  monic := Polynomial.monic_X_add_C _
  degree k hk := absurd (Subsingleton.elim k 0) hk
  span := by
    have e2 : { g : MvPolynomial (_root_.Fin 1) ℚ | ∃ k : _root_.Fin 1, k ≠ 0 ∧ g = X k + Polynomial.aeval (X (0 : _root_.Fin 1)) (0 : Polynomial ℚ) } = ∅ := by
      ext g
      simp only [Set.mem_ofPred_eq, Set.mem_empty_iff_false, iff_false]
      rintro ⟨k, hk, -⟩
      exact hk (Subsingleton.elim _ _)
    rw [e2, Set.union_empty, l_ideal]
    congr 2
    have f1 : fs ![1] = Finsupp.single (0 : _root_.Fin 1) 1 := by
      apply Finsupp.ext
      intro i
      fin_cases i
      simp [fs]
    have f0 : fs ![0] = (0 : _root_.Fin 1 →₀ ℕ) := by
      apply Finsupp.ext
      intro i
      fin_cases i
      simp [fs]
    rw [map_add, Polynomial.aeval_X, Polynomial.aeval_C, lin, f1, f0]
    rfl

theorem l_exact (coords : List (List ℤ × ℤ)) : ExactFor (idealQ 1 lTerms) [-1, 2] coords := by
  intro last w c hl hS
  obtain rfl : last = 0 := Subsingleton.elim _ _
  obtain ⟨rfl, -⟩ := l_shape.unique hS
  refine ⟨fun i hi => ?_, fun k hk => absurd (Subsingleton.elim k 0) hk⟩
  rw [Polynomial.natDegree_X_add_C] at hi
  unfold elimErr
  rw [Polynomial.natDegree_X_add_C]
  have h1 : (-1 / 2 : ℚ).num = -1 := by norm_num
  have h2 : (-1 / 2 : ℚ).den = 2 := by norm_num
  interval_cases i
  · simp [h1, h2]
  · simp

theorem l_value (x : ℝ) : value [-1, 2] x = 0 ↔ x = 1 / 2 := by
  simp [value]
  constructor <;> intro h <;> linarith

theorem l_apart (k : ℕ) : RootsApart [-1, 2] k := by
  intro x y hx hy hne
  rw [l_value] at hx hy
  exact absurd (hx.trans hy.symm) hne

theorem l_good4 : ∀ p ∈ [1073741827, 1073741831, 1073741833, 1073741839], GoodPrime (n := 1) OKind.drl.mo lTerms p :=
  fun p hp => l_good (l_primes p hp).1 (l_primes p hp).2.1

theorem l_top : idealQ 1 lTerms ≠ ⊤ ∧ Module.Finite ℚ (MvPolynomial (_root_.Fin 1) ℚ ⧸ idealQ 1 lTerms) := by
  obtain ⟨out2, h1, form, denom, coords, h2⟩ := l_run
  have hv : Variant lNames.length lTerms 1 id lTerms := .same
  rcases run_casesQ lFile_ok (by decide) (by decide) h1 hv rfl l_good4 (by decide) with ⟨-, h⟩ | ⟨-, h⟩ | ⟨h3, h4, -⟩
  · rw [h] at h2
    simp at h2
  · rw [h] at h2
    simp at h2
  · exact ⟨h3, h4⟩

theorem l_sols (sols : List (_root_.Fin 1 → ℝ)) (h7 : RealZeros (idealQ 1 lTerms) sols) : sols = [fun _ => 1 / 2] := by
  have hz : ∀ z : _root_.Fin 1 → ℝ, z ∈ sols ↔ z = fun _ => 1 / 2 := by
    intro z
    rw [h7.2]
    rw [l_ideal]
    constructor
    · intro h
      have := h _ (Ideal.mem_span_singleton_self _)
      rw [lin_aeval] at this
      funext i
      fin_cases i
      simp only [Fin.zero_eta]
      linarith
    · rintro rfl f hf
      obtain ⟨q, rfl⟩ := Ideal.mem_span_singleton.mp hf
      rw [map_mul, lin_aeval, sub_self, zero_mul]
  have hnd := h7.1
  match sols, hz, hnd with
  | [], hz, _ => exact absurd ((hz _).mpr rfl) List.not_mem_nil
  | [a], hz, _ => rw [(hz a).mp (by simp)]
  | a :: b :: l, hz, hnd =>
    have ha := (hz a).mp (by simp)
    have hb := (hz b).mp (by simp)
    rw [ha, hb] at hnd
    simp at hnd

theorem l_box {gp : ℕ} (hgp : gp ≤ 1) : ∃ out form denom coords, SolveQ.Run 2 3 1 128 gp lFile.text (lTerms.map (qqPoly 1))
      [1073741827, 1073741831, 1073741833, 1073741839] out ∧
    ∃ q : ℚ × ℚ, readOutput out = some (.list (.num 0 :: ((if gp = 1 then [ratParam 1 1 lNames form [-1, 2] denom coords] else []) ++ [points [[q]]]))) ∧
      q.1 ≤ 1 / 2 ∧ 1 / 2 ≤ q.2 := by
  obtain ⟨out2, h1, form, denom, coords, h2⟩ := l_run
  have hv : Variant lNames.length lTerms 1 id lTerms := .same
  obtain ⟨d, pn, fm, el, dn, co, h3, hres, h4⟩ := C81_ends_partial lFile_ok (by decide) (by decide) h1 hv rfl l_good4 (by decide) l_top.1 l_top.2
  rw [h2, Option.some.injEq, Tree.list.injEq] at h3
  obtain ⟨-, hd, rfl, rfl, rfl, rfl, rfl⟩ := ratParam_inj (by simpa using h3)
  obtain rfl : d = 1 := by exact_mod_cast hd.symm
  obtain ⟨out', boxes, sols, h5, h6, h7, h8, h9⟩ := h4 rfl (by norm_num) (l_exact _) 128 (l_apart _) gp hgp
  obtain ⟨last, w, c, -, -, -, hw, hL, -⟩ := hres.lifted rfl (by norm_num)
  have hdl : denom.length = 1 := by rw [hL.dlen, hw]
  have hin := h9 fun x _ k _ r _ _ j hj => absurd hj (by omega)
  obtain rfl := l_sols sols h7
  cases hin with
  | cons hb ht =>
    cases ht
    rename_i b
    obtain ⟨hb1, hb2⟩ := hb
    obtain ⟨k, q, hk1, hk2, hk3, hk4⟩ := hb2 ⟨0, by decide⟩
    match b, hb1, hk2 with
    | [q'], _, hk2 =>
      have hk : k = 0 := by
        by_contra hne
        rw [List.getElem?_eq_none (by simp; omega)] at hk2
        simp at hk2
      subst hk
      obtain rfl : q' = q := by simpa using hk2
      replace hk3 : (q'.1 : ℝ) ≤ 1 / 2 := hk3
      replace hk4 : 1 / 2 ≤ (q'.2 : ℝ) := hk4
      have e : ((1 / 2 : ℚ) : ℝ) = 1 / 2 := by norm_num
      rw [← e] at hk3 hk4
      exact ⟨out', form, denom, coords, h5, q', h6, by exact_mod_cast hk3, by exact_mod_cast hk4⟩

/-- The hypotheses of `C81_points_partial` are met: for the polynomial `2 x - 1` one box is printed, and it contains `1/2`; with `-P 1` also the exact parametrization is
printed. -/
example : ∃ out out1, SolveQ.Run 2 3 1 128 0 lFile.text (lTerms.map (qqPoly 1)) [1073741827, 1073741831, 1073741833, 1073741839] out ∧
    SolveQ.Run 2 3 1 128 1 lFile.text (lTerms.map (qqPoly 1)) [1073741827, 1073741831, 1073741833, 1073741839] out1 ∧
    InputOkQ lFile lNames lTerms ∧ ['A'] ∉ lNames ∧ (∀ nm ∈ lNames, '\'' ∉ nm) ∧ Variant lNames.length lTerms 1 id lTerms ∧
    (∀ p ∈ [1073741827, 1073741831, 1073741833, 1073741839], GoodPrime (n := 1) OKind.drl.mo lTerms p) ∧
    [1073741827, 1073741831, 1073741833, 1073741839].Nodup ∧ idealQ 1 lTerms ≠ ⊤ ∧ Module.Finite ℚ (MvPolynomial (_root_.Fin 1) ℚ ⧸ idealQ 1 lTerms) ∧
    (∃ q : ℚ × ℚ, readOutput out = some (.list [.num 0, points [[q]]]) ∧ q.1 ≤ 1 / 2 ∧ 1 / 2 ≤ q.2) ∧
    ∃ form denom coords, ∃ q : ℚ × ℚ, readOutput out1 = some (.list [.num 0, ratParam 1 1 lNames form [-1, 2] denom coords, points [[q]]]) ∧
      q.1 ≤ 1 / 2 ∧ 1 / 2 ≤ q.2 ∧ ExactFor (idealQ 1 lTerms) [-1, 2] coords ∧ RootsApart [-1, 2] (max 128 128) := by
  obtain ⟨out, _, _, _, h1, q, h2, h3⟩ := l_box (gp := 0) (by norm_num)
  obtain ⟨out1, form, denom, coords, h4, q', h5, h6, h7⟩ := l_box (gp := 1) (by norm_num)
  exact ⟨out, out1, h1, h4, lFile_ok, by decide, by decide, .same, l_good4, by decide, l_top.1, l_top.2, ⟨q, h2, h3⟩, form, denom, coords, q', h5, h6, h7,
    l_exact _, l_apart _⟩

end SolveQ
end Verif.Props
