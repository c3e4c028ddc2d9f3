import Verif.UDescartes
import Verif.UBound
import Verif.Spec.Isolate
import Mathlib.Topology.Algebra.Polynomial
import Mathlib.Topology.Order.IntermediateValue
import Mathlib.Algebra.Polynomial.FieldDivision
import Mathlib.Algebra.Order.Archimedean.Real.Basic
import Mathlib.Topology.Instances.Real.Lemmas

/-!
The bisection.
Source: src/usolve/usolve.c 281-345 (`is_zero_root`), 347-440 (root at one half), 442-668 (the cases of the
Descartes test), 671-772 (splitting), 775-923 (`bisection_rec`).
-/
namespace Verif.UIsolate
open Verif.UPoly Verif.UEval Verif.UScale Verif.UTaylor Verif.USign Verif.UDescartes Polynomial

/-- The polynomial that is worked on and the part of `usolve_flags` that is used: `cur_deg`, `pwx` and the
number `npwr` of arrays of the table `shift_pwx`. -/
structure St where
  up : ℕ → ℤ
  deg : ℕ
  cur : ℕ
  pwx : ℕ
  npwr : ℕ

/-- A record as given to `merge_root`: `c / 2^k` if `exact`, otherwise the interval between `c / 2^k` and
`(c + 1) / 2^k`. The bounds and the sign `flags->sign`, constant during the bisection, are applied to the
records afterwards in this model (`merge`). -/
structure Raw where
  c : ℕ
  k : ℕ
  exact : Bool
  deriving DecidableEq

/-- `flags->shift_pwx`; arrays that do not exist are read as 0. -/
def tabOf (s : St) : ℕ → ℕ → ℤ := fun i => if i < s.npwr then shiftTab s.pwx i else fun _ => 0

/-- usolve.c 313-342, 408-437: the table is computed anew if the base power has changed. `none`:
`compute_degpower(0)` does not end. -/
def updPwx (s : St) : Option St :=
  (degPower s.cur).map fun p =>
    if p ≠ s.pwx then { s with pwx := p, npwr := if s.cur ≤ p then 0 else Nat.log 2 (s.cur / p) } else s

/-- Outcomes of the parts of the bisection: `exit` is the call of `exit(1)` (not square-free), `hang` stands
for loops that do not end and for accesses outside of arrays, `fuel` for the exhausted recursion depth of
the model. -/
inductive Res where
  | fuel | exit | hang
  | done (s : St) (out : List Raw) (ret : Option ℕ)

/-- usolve.c 281-345 (`is_zero_root`). -/
def zeroRoot (s : St) (c k : ℕ) : Res :=
  if s.up 0 = 0 then
    if s.up 1 = 0 then .exit
    else
      let s' := { s with deg := s.deg - 1, up := fun j => if j ≤ s.deg - 1 then s.up (j + 1) else s.up j }
      match updPwx s' with
      | none => .hang
      | some s'' => .done s'' [⟨c, k, true⟩] none
  else .done s [] none

/-- usolve.c 347-440: the new state and the sign at one half; `half` tells whether 1/2 was a root. -/
inductive HalfRes where
  | exit | hang
  | ok (s : St) (half : Bool) (shalf : ℤ)

/-- usolve.c 390-440 (`manage_root_at_one_half`). -/
def manageHalf (s : St) : HalfRes :=
  let sh := (evalOneHalf s.up s.deg).sign
  if sh = 0 then
    match numerQuotient s.up s.deg 1 1 with
    | none => .hang
    | some (q, d) =>
      let sh' := (evalOneHalf q d).sign
      if sh' = 0 then .exit
      else
        match updPwx { s with up := q, deg := d, cur := d } with
        | none => .hang
        | some s' => .ok s' true sh'
  else .ok s false sh

/-- The record of the root at one half, if there is one. -/
def halfRec (c k : ℕ) (half : Bool) : List Raw := if half = true then [⟨2 * c + 1, k + 1, true⟩] else []

/-- usolve.c 470-591 (`nb_1_case_in_bisection_rec`): the records. -/
def oneCase (c k : ℕ) (half : Bool) (bot top shalf : ℤ) : List Raw :=
  if half = true then
    if bot * shalf < 0 then [⟨2 * c, k + 1, false⟩, ⟨2 * c + 1, k + 1, true⟩]
    else if top ≠ 0 then [⟨2 * c + 1, k + 1, true⟩, ⟨2 * c + 1, k + 1, false⟩]
    else [⟨2 * c + 1, k + 1, true⟩, ⟨2 * c + 2, k + 1, true⟩]
  else if top ≠ 0 then [⟨c, k, false⟩] else [⟨c + 1, k, true⟩]

/-- usolve.c 594-668 (`nb_2_case_in_bisection_rec`): the records. -/
def twoCase (c k : ℕ) (half : Bool) (top : ℤ) : List Raw :=
  [⟨2 * c, k + 1, false⟩] ++ halfRec c k half ++
    (if top ≠ 0 then [⟨2 * c + 1, k + 1, false⟩] else [⟨2 * c + 2, k + 1, true⟩])

/-- usolve.c 775-923 (`bisection_rec`) with 671-772, for `classical_algo = 0` and `hasrealroots = 0` (the
values set by `initialize_flags`, never changed by the library); then `bsgn` is always 0. The returned
value `-1` is `none`. The counters, times and messages are left out. `fuel` bounds the recursion depth. -/
def bisect : ℕ → St → ℕ → ℕ → Res
  | 0, _, _, _ => .fuel
  | fuel + 1, s, c, k =>
    match zeroRoot s c k with
    | .done s0 out0 _ =>
      match manageHalf s0 with
      | .exit => .exit
      | .hang => .hang
      | .ok s1 half shalf =>
        match variationsIsZero s1.up s1.deg with
        | none => .hang
        | some 0 => .done s1 (out0 ++ halfRec c k half) none
        | some (_ + 1) =>
          match descartes (tabOf s1) s1.up s1.deg s1.pwx with
          | none => .hang
          | some nb =>
            let bot := (s1.up 0).sign
            let top := (evalOne s1.up s1.deg).sign
            if nb = 0 then .done s1 (out0 ++ halfRec c k half) (some k)
            else if nb = 1 then .done s1 (out0 ++ oneCase c k half bot top shalf) (some k)
            else if nb = 2 ∧ bot * shalf < 0 ∧ top * shalf ≤ 0 then
              .done s1 (out0 ++ twoCase c k half top) (some k)
            else
              match bisect fuel { s1 with up := (rescale s1.up (-1) s1.deg).2 } (2 * c) (k + 1) with
              | .done s2 out1 none => .done s2 (out0 ++ out1 ++ halfRec c k half) none
              | .done s2 out1 (some oldk) =>
                match dac (tabOf s2) s2.up s2.deg s2.pwx with
                | none => .hang
                | some g =>
                  let g' := if k + 1 < oldk then (rescale g ((oldk : ℤ) - (k + 1)) s2.deg).2 else g
                  match bisect fuel { s2 with up := g' } (2 * c + 1) (k + 1) with
                  | .done s3 out2 r => .done s3 (out0 ++ out1 ++ halfRec c k half ++ out2) r
                  | e => e
              | e => e
    | e => e

/-! ### polynomials -/

/-- The real polynomial of an array. -/
noncomputable def rp (f : ℕ → ℤ) (deg : ℕ) : ℝ[X] := (toPoly f deg).map (Int.castRingHom ℝ)

theorem rp_eval (f : ℕ → ℤ) (deg : ℕ) (x : ℝ) : (rp f deg).eval x = aeval x (toPoly f deg) := by
  unfold rp
  rw [eval_map, aeval_def]
  rfl

theorem rp_ne_zero {f : ℕ → ℤ} {deg : ℕ} (h : f deg ≠ 0) : rp f deg ≠ 0 := by
  unfold rp
  rw [Ne, Polynomial.map_eq_zero_iff Int.cast_injective]
  exact toPoly_ne_zero h

theorem card_pos_roots_le {R : ℝ[X]} (hR : R ≠ 0) (S : Finset ℝ) (hS : ∀ t ∈ S, 0 < t ∧ R.eval t = 0) :
    S.card ≤ R.signVariations := by
  refine le_trans ?_ (roots_countP_pos_le_signVariations R)
  have h1 : S.val ≤ R.roots.filter (0 < ·) := by
    rw [Multiset.le_iff_subset S.nodup]
    intro t ht
    rw [Multiset.mem_filter, mem_roots hR]
    exact ⟨(hS t ht).2, (hS t ht).1⟩
  rw [Multiset.countP_eq_card_filter]
  exact Multiset.card_le_card h1

/-- The transformed polynomial of the Descartes test. -/
noncomputable def desPoly (f : ℕ → ℤ) (deg : ℕ) : ℝ[X] :=
  ((toPoly (reversed f deg) deg).comp (X + 1)).map (Int.castRingHom ℝ)

theorem desPoly_eval (f : ℕ → ℤ) (deg : ℕ) {t : ℝ} (ht : t + 1 ≠ 0) :
    (desPoly f deg).eval t = (t + 1) ^ deg * (rp f deg).eval (1 / (t + 1)) := by
  rw [rp_eval, aeval_toPoly]
  unfold desPoly
  rw [Polynomial.map_comp, eval_comp]
  simp only [Polynomial.map_add, map_X, Polynomial.map_one, eval_add, eval_X, eval_one]
  rw [show eval (t + 1) (Polynomial.map (Int.castRingHom ℝ) (toPoly (reversed f deg) deg))
    = (rp (reversed f deg) deg).eval (t + 1) from rfl, rp_eval, aeval_toPoly, Finset.mul_sum,
    ← Finset.sum_range_reflect]
  refine Finset.sum_congr rfl fun i hi => ?_
  have hi := Finset.mem_range.mp hi
  unfold reversed
  rw [show deg + 1 - 1 - i = deg - i by omega, show deg - (deg - i) = i by omega]
  have : (t + 1) ^ deg = (t + 1) ^ (deg - i) * (t + 1) ^ i := by rw [← pow_add]; congr 1; omega
  rw [this, div_pow, one_pow]
  field_simp

theorem varShift_desPoly (f : ℕ → ℤ) (deg : ℕ) : varShift (reversed f deg) deg = (desPoly f deg).signVariations := rfl

theorem desPoly_ne_zero {f : ℕ → ℤ} {deg : ℕ} (h : f 0 ≠ 0) : desPoly f deg ≠ 0 := by
  unfold desPoly
  rw [Ne, Polynomial.map_eq_zero_iff Int.cast_injective]
  intro h0
  have := coeff_shift_top (reversed f deg) deg
  rw [h0, coeff_zero] at this
  unfold reversed at this
  rw [Nat.sub_self] at this
  exact h this.symm

/-- Descartes' bound for the roots between 0 and 1. -/
theorem card_unit_roots_le {f : ℕ → ℤ} {deg : ℕ} (h : f 0 ≠ 0) (S : Finset ℝ)
    (hS : ∀ x ∈ S, 0 < x ∧ x < 1 ∧ (rp f deg).eval x = 0) : S.card ≤ varShift (reversed f deg) deg := by
  rw [varShift_desPoly]
  have hinj : Set.InjOn (fun x : ℝ => 1 / x - 1) (S : Set ℝ) := by
    intro x hx y hy hxy
    have hx := (hS x hx).1
    have hy := (hS y hy).1
    simp only at hxy
    have : 1 / x = 1 / y := by linarith
    field_simp at this
    exact this.symm
  rw [← Finset.card_image_of_injOn hinj]
  refine card_pos_roots_le (desPoly_ne_zero h) _ fun t ht => ?_
  obtain ⟨x, hx, rfl⟩ := Finset.mem_image.mp ht
  obtain ⟨h1, h2, h3⟩ := hS x hx
  have h4 : 1 < 1 / x := by rw [lt_div_iff₀ h1]; linarith
  refine ⟨by linarith, ?_⟩
  rw [desPoly_eval f deg (by linarith), show 1 / (1 / x - 1 + 1) = x by field_simp; ring, h3, mul_zero]

/-! ### parity -/

theorem svCount_parity (l : List ℤ) (z : ℤ) (hz : z ≠ 0) : ∀ s : ℤ, (s = 1 ∨ s = -1) →
    (Even (svCount s (l ++ [z])) ↔ z.sign = s) := by
  induction l with
  | nil =>
    intro s hs
    simp only [List.nil_append, svCount]
    rcases hs with rfl | rfl <;> rcases sign_cases hz with h | h <;> rw [h] <;> decide
  | cons a l ih =>
    intro s hs
    simp only [List.cons_append, svCount]
    split
    · rename_i hc
      have ha : a ≠ 0 := by rintro rfl; simp at hc
      have := (sign_mul_neg_iff hs).mp hc
      rw [Nat.even_add_one, ih _ (sign_cases ha), this]
      rcases hs with rfl | rfl <;> rcases sign_cases hz with h | h <;> rw [h] <;> decide
    · exact ih s hs

theorem varShift_parity {f : ℕ → ℤ} {deg : ℕ} (hdeg : 1 ≤ deg) (h0 : f 0 ≠ 0) (h1 : evalOne f deg ≠ 0) :
    Even (varShift (reversed f deg) deg) ↔ (evalOne f deg).sign = (f 0).sign := by
  set R := (toPoly (reversed f deg) deg).comp (X + 1) with hR
  set g : ℕ → ℤ := fun i => R.coeff i with hg
  have hgR : toPoly g deg = R := by
    ext i
    rw [coeff_toPoly]
    split
    · rfl
    · symm
      apply coeff_eq_zero_of_natDegree_lt
      have h1 := natDegree_comp_le (p := toPoly (reversed f deg) deg) (q := X + 1)
      have h2 : (X + 1 : ℤ[X]).natDegree ≤ 1 := by
        rw [← C_1]; exact (natDegree_X_add_C (1 : ℤ)).le
      have h3 := natDegree_toPoly_le (reversed f deg) deg
      have h4 : (toPoly (reversed f deg) deg).natDegree * (X + 1 : ℤ[X]).natDegree ≤ deg * 1 := Nat.mul_le_mul h3 h2
      rw [hR]; omega
  have hf : reversed f deg deg = f 0 := by unfold reversed; rw [Nat.sub_self]
  obtain ⟨_, e2⟩ := varShift_eq (a := reversed f deg) (g := g) (deg := deg) (by rw [hf]; exact h0) hgR
  rw [e2, hf]
  have hg0 : g 0 = evalOne f deg := by
    rw [hg, evalOne_eq]
    simp only
    rw [hR, coeff_shift]
    simp only [Nat.choose_zero_right, Nat.cast_one, mul_one]
    rw [← Finset.sum_range_reflect]
    refine Finset.sum_congr rfl fun i hi => ?_
    have := Finset.mem_range.mp hi
    unfold reversed
    congr 1; omega
  have hd : desc g deg = (List.range (deg - 1)).reverse.map (fun i => g (i + 1)) ++ [g 0] := by
    obtain ⟨n, rfl⟩ : ∃ n, deg = n + 1 := ⟨deg - 1, by omega⟩
    unfold desc
    rw [Nat.add_sub_cancel, List.range_succ_eq_map]
    simp [List.map_reverse, Function.comp_def]
  rw [hd, svCount_parity _ _ (by rw [hg0]; exact h1) _ (sign_cases h0), hg0]

theorem exists_root_between (p : ℝ[X]) {a b : ℝ} (hab : a < b) (h : p.eval a * p.eval b < 0) :
    ∃ x, a < x ∧ x < b ∧ p.eval x = 0 := by
  have hc : ContinuousOn (fun x => p.eval x) (Set.Icc a b) := p.continuous.continuousOn
  rcases lt_trichotomy (p.eval a) 0 with ha | ha | ha
  · have hb : 0 < p.eval b := by nlinarith
    obtain ⟨x, hx, h0⟩ := intermediate_value_Ioo hab.le hc ⟨ha, hb⟩
    exact ⟨x, hx.1, hx.2, h0⟩
  · rw [ha, zero_mul] at h; exact absurd h (lt_irrefl _)
  · have hb : p.eval b < 0 := by nlinarith
    obtain ⟨x, hx, h0⟩ := intermediate_value_Ioo' hab.le hc ⟨hb, ha⟩
    exact ⟨x, hx.1, hx.2, h0⟩

end Verif.UIsolate
