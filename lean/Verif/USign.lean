import Verif.UTaylor
import Mathlib.Algebra.Polynomial.RuleOfSigns
import Mathlib.Data.Nat.Size
import Mathlib.Data.Nat.Choose.Bounds
import Mathlib.Data.Nat.Choose.Sum
import Mathlib.Data.Real.Basic
import Mathlib.Tactic.Push

/-!
Counting the sign variations of the coefficients of a polynomial.
Source: src/usolve/descartes.c 37-57 (`mpz_poly_sgn_variations_coeffs`), src/usolve/usolve.c 259-279
(`mpz_poly_sgn_variations_coeffs_is_zero`), src/usolve/utils.c 39-49, 237-277, src/usolve/taylor_shift.c
267-311.
-/
namespace Verif.USign
open Verif.UPoly Polynomial

/-- descartes.c 42-56 and usolve.c 266-278: the loop from coefficient `i` down to coefficient 1 followed by
the test of coefficient 0. `s` is the current sign, `cap` the count at which the function stops early
(3 in descartes.c, 1 in usolve.c). -/
def varLoop (cap : ℕ) (f : ℕ → ℤ) : ℕ → ℤ → ℕ → ℕ
  | 0, s, nb => if s * (f 0).sign < 0 then nb + 1 else nb
  | i + 1, s, nb =>
    if (f (i + 1)).sign * s < 0 then
      if cap ≤ nb + 1 then nb + 1 else varLoop cap f i (f (i + 1)).sign (nb + 1)
    else varLoop cap f i s nb

/-- descartes.c 37-57 for `deg ≥ 1` (for `deg = 0` the loop starts at index `2^64 - 1`: `none`). -/
def variations (f : ℕ → ℤ) (deg : ℕ) : Option ℕ :=
  if deg = 0 then none else some (varLoop 3 f (deg - 1) (f deg).sign 0)

/-- usolve.c 259-279, for `deg ≥ 1` (`none` for `deg = 0`). -/
def variationsIsZero (f : ℕ → ℤ) (deg : ℕ) : Option ℕ :=
  if deg = 0 then none else some (varLoop 1 f (deg - 1) (f deg).sign 0)

/-- `ilog2_mpz(x)`, that is `mpz_sizeinbase(x, 2)` (GMP, trusted). -/
def bitSize (x : ℤ) : ℕ := if x = 0 then 1 else x.natAbs.size

/-- utils.c 39-49 (`mpz_poly_max_bsize_coeffs`). -/
def maxBsize (f : ℕ → ℤ) (deg : ℕ) : ℕ :=
  (List.range (deg + 1)).foldl (fun m i => if m < bitSize (f i) then bitSize (f i) else m) 0

/-- utils.c 252 and taylor_shift.c 285: the number of bits of coefficient `i` that are not reliable; `L` is
the logarithm of `bsize`. -/
def lossBits (deg bsize L i : ℕ) : ℕ := min ((bsize - i + 1) * L + 1) (min deg ((i + 1) * L + 1))

/-- utils.c 249-276: loop over the coefficients `i..1`, then coefficient 0; `none` stands for `-1`. -/
def bsLoop (f : ℕ → ℤ) (deg bsize L : ℕ) : ℕ → ℤ → ℕ → Bool → Option ℕ
  | 0, s, nb, boo =>
    let N := L + 1
    let l := bitSize (f 0)
    let boo' := if l ≤ N ∨ f 0 = 0 then false else boo
    let nb' := if s * (f 0).sign < 0 ∧ N < l ∧ f 0 ≠ 0 then nb + 1 else nb
    if 3 ≤ nb' ∨ boo' = true then some nb' else none
  | i + 1, s, nb, boo =>
    let l := bitSize (f (i + 1))
    let N := lossBits deg bsize L (i + 1)
    let boo' := if l ≤ N ∨ f (i + 1) = 0 then false else boo
    if (f (i + 1)).sign * s < 0 ∧ N < l ∧ f (i + 1) ≠ 0 then
      if 3 ≤ nb + 1 then some (nb + 1) else bsLoop f deg bsize L i (f (i + 1)).sign (nb + 1) boo'
    else bsLoop f deg bsize L i s nb boo'

/-- utils.c 237-277 (`USOLVEmpz_poly_sgn_variations_coeffs_bsize`) and taylor_shift.c 267-311 (the same
function, which also reports an index that is not used), for `deg ≥ 1`. -/
def variationsBsize (f : ℕ → ℤ) (deg bsize : ℕ) : Option ℕ :=
  if (f deg).sign = 0 then none
  else bsLoop f deg bsize (Nat.log 2 bsize) (deg - 1) (f deg).sign 0 true

/-! ### sign variations of lists -/

/-- Sign changes along a list of integers, beginning with the sign `s`; zeros are skipped. -/
def svCount (s : ℤ) : List ℤ → ℕ
  | [] => 0
  | a :: l => if a.sign * s < 0 then svCount a.sign l + 1 else svCount s l

/-- Coefficients `n - 1, …, 0`. -/
def desc (f : ℕ → ℤ) (n : ℕ) : List ℤ := (List.range n).reverse.map f

theorem desc_succ (f : ℕ → ℤ) (n : ℕ) : desc f (n + 1) = f n :: desc f n := by
  simp [desc, List.range_succ]

theorem sign_mul_neg_iff {a s : ℤ} (hs : s = 1 ∨ s = -1) : a.sign * s < 0 ↔ a.sign = -s := by
  rcases hs with rfl | rfl <;> rcases Int.sign_trichotomy a with h | h | h <;> rw [h] <;> decide

theorem svCount_destutter (l : List ℤ) : ∀ s : ℤ, s = 1 ∨ s = -1 →
    (((l.map SignType.sign).filter (· ≠ 0)).destutter' (· ≠ ·) (SignType.sign s)).length = svCount s l + 1 := by
  induction l with
  | nil => intro s _; simp [svCount]
  | cons a l ih =>
    intro s hs
    rcases lt_trichotomy a 0 with ha | ha | ha
    · have h1 : SignType.sign a = -1 := sign_neg ha
      have h2 : a.sign = -1 := Int.sign_eq_neg_one_of_neg ha
      rcases hs with rfl | rfl
      · have := ih (-1) (Or.inr rfl)
        simp only [svCount, List.map_cons, h1, h2]
        rw [List.filter_cons_of_pos (by decide), List.destutter'_cons_pos _ (by decide)]
        simp at this ⊢
        exact this
      · have := ih (-1) (Or.inr rfl)
        simp only [svCount, List.map_cons, h1, h2]
        rw [List.filter_cons_of_pos (by decide), List.destutter'_cons_neg _ (by decide)]
        simp at this ⊢
        exact this
    · subst ha
      have := ih s hs
      simp [svCount] at this ⊢
      exact this
    · have h1 : SignType.sign a = 1 := sign_pos ha
      have h2 : a.sign = 1 := Int.sign_eq_one_of_pos ha
      rcases hs with rfl | rfl
      · have := ih 1 (Or.inl rfl)
        simp only [svCount, List.map_cons, h1, h2]
        rw [List.filter_cons_of_pos (by decide), List.destutter'_cons_neg _ (by decide)]
        simp at this ⊢
        exact this
      · have := ih 1 (Or.inl rfl)
        simp only [svCount, List.map_cons, h1, h2]
        rw [List.filter_cons_of_pos (by decide), List.destutter'_cons_pos _ (by decide)]
        simp at this ⊢
        exact this

theorem sign_cases {a : ℤ} (h : a ≠ 0) : a.sign = 1 ∨ a.sign = -1 := by
  rcases lt_or_gt_of_ne h with h | h
  · exact Or.inr (Int.sign_eq_neg_one_of_neg h)
  · exact Or.inl (Int.sign_eq_one_of_pos h)

/-- The number of sign variations of the real polynomial stored in an array. -/
theorem signVariations_toPoly {f : ℕ → ℤ} {deg : ℕ} (h : f deg ≠ 0) :
    signVariations ((toPoly f deg).map (Int.castRingHom ℝ)) = svCount (f deg).sign (desc f deg) := by
  have hinj : Function.Injective (Int.castRingHom ℝ) := Int.cast_injective
  have hne : (toPoly f deg).map (Int.castRingHom ℝ) ≠ 0 := by
    rw [Ne, Polynomial.map_eq_zero_iff hinj]; exact toPoly_ne_zero h
  have hdeg : ((toPoly f deg).map (Int.castRingHom ℝ)).natDegree = deg := by
    rw [natDegree_map_eq_of_injective hinj, natDegree_toPoly h]
  have hcl : ((toPoly f deg).map (Int.castRingHom ℝ)).coeffList.map SignType.sign
      = SignType.sign (f deg) :: (desc f deg).map SignType.sign := by
    unfold coeffList
    rw [withBotSucc_degree_eq_natDegree_add_one hne, hdeg, ← List.map_cons (f := SignType.sign), ← desc_succ]
    unfold desc
    rw [List.map_map, List.map_map]
    refine List.map_congr_left fun i hi => ?_
    have hi' : i < deg + 1 := by simpa using hi
    simp only [Function.comp_apply, coeff_map, coeff_toPoly, if_pos (Nat.lt_succ_iff.mp hi'), eq_intCast]
    rcases lt_trichotomy (f i) 0 with h | h | h
    · rw [sign_neg h, sign_neg (by exact_mod_cast h)]
    · rw [h]; simp
    · rw [sign_pos h, sign_pos (by exact_mod_cast h)]
  unfold signVariations
  rw [hcl]
  have hs : SignType.sign (f deg) ≠ 0 := by simpa using h
  rw [List.filter_cons_of_pos (by simpa using hs)]
  change ((List.filter _ _).destutter' _ _).length - 1 = _
  have := svCount_destutter (desc f deg) (f deg).sign (sign_cases h)
  have e : SignType.sign (f deg).sign = SignType.sign (f deg) := by
    rcases lt_trichotomy (f deg) 0 with h | h | h
    · rw [Int.sign_eq_neg_one_of_neg h, sign_neg h]; rfl
    · rw [h]; rfl
    · rw [Int.sign_eq_one_of_pos h, sign_pos h]; rfl
  rw [e] at this
  rw [this]; rfl

theorem varLoop_spec (cap : ℕ) (f : ℕ → ℤ) (i : ℕ) : ∀ (s : ℤ) (nb : ℕ), nb < cap →
    varLoop cap f i s nb = nb + svCount s (desc f (i + 1)) ∨
      cap ≤ varLoop cap f i s nb ∧ cap ≤ nb + svCount s (desc f (i + 1)) := by
  induction i with
  | zero =>
    intro s nb _
    left
    simp only [varLoop, desc, List.range_succ, List.range_zero, List.nil_append, List.reverse_cons,
      List.reverse_nil, List.map_cons, List.map_nil, svCount]
    rw [mul_comm]
    split <;> simp
  | succ i ih =>
    intro s nb hnb
    rw [desc_succ]
    simp only [varLoop, svCount]
    split
    · split
      · right; omega
      · rcases ih (f (i + 1)).sign (nb + 1) (by omega) with h | h
        · left; rw [h]; omega
        · right; refine ⟨h.1, ?_⟩; omega
    · exact ih s nb hnb

/-- Both counting functions: exact below the cap, and at least the cap only if there are that many. -/
theorem varLoop_poly {f : ℕ → ℤ} {deg cap : ℕ} (h : f deg ≠ 0) (hdeg : deg ≠ 0) (hcap : 0 < cap) :
    let v := signVariations ((toPoly f deg).map (Int.castRingHom ℝ))
    let r := varLoop cap f (deg - 1) (f deg).sign 0
    r = v ∨ cap ≤ r ∧ cap ≤ v := by
  have := varLoop_spec cap f (deg - 1) (f deg).sign 0 hcap
  rw [show deg - 1 + 1 = deg by omega, zero_add, ← signVariations_toPoly h] at this
  exact this

end Verif.USign
