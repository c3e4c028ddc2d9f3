import Verif.UEval
import Mathlib.Data.Nat.Size
import Mathlib.Algebra.Polynomial.RingDivision
import Mathlib.Tactic.LinearCombination

/-!
Rescaling, removal of the binary content, and division by a linear factor, in place.
Source: src/usolve/utils.c 52-80, 108-128, 156-179, src/usolve/usolve.c 366-388.
-/
namespace Verif.UScale
open Verif.UPoly

/-- The number of trailing zero bits, at most `fuel` of them. -/
def trailing : ℕ → ℕ → ℕ
  | 0, _ => 0
  | fuel + 1, n => if n % 2 = 0 then trailing fuel (n / 2) + 1 else 0

/-- `mpz_scan1(x, 0)` for `x ≠ 0` (GMP, trusted): the index of the lowest bit that is set. -/
def scan1 (x : ℤ) : ℕ := trailing x.natAbs.size x.natAbs

/-- utils.c 60-61: `while (mpz_sgn(upol[i]) == 0) i++`, at most `fuel` turns. -/
def skipZeros (up : ℕ → ℤ) : ℕ → ℕ → ℕ
  | 0, i => i
  | n + 1, i => if up i = 0 then skipZeros up n (i + 1) else i

/-- utils.c 65-72: the loop over the remaining coefficients, `n` turns from `i` on; stops when `c = 0`. -/
def contLoop (up : ℕ → ℤ) : ℕ → ℕ → ℕ → ℕ
  | 0, _, c => c
  | n + 1, i, c =>
    if c = 0 then 0
    else contLoop up n (i + 1) (if up i ≠ 0 then (if scan1 (up i) < c then scan1 (up i) else c) else c)

/-- utils.c 52-80 (`mpz_poly_remove_binary_content`): returned value and new array. -/
def removeContent (up : ℕ → ℤ) (deg : ℕ) : ℕ × (ℕ → ℤ) :=
  if up deg = 0 then (0, up)
  else
    let i := skipZeros up deg 0
    let c := contLoop up (deg + 1 - i) i (scan1 (up i))
    if c = 0 then (0, up) else (c, fun j => if j ≤ deg then up j / 2 ^ c else up j)

/-- utils.c 156-179 (`USOLVEmpz_poly_rescale_normalize_2exp_th`): returned content and new array. The
parallel loop writes every entry once, from its own old value. For `b ≤ 0` the exponent
`(i - deg) * b` is computed modulo `2^64` from two wrapped factors; it is `(deg - i) * (-b)`. -/
def rescale (up : ℕ → ℤ) (b : ℤ) (deg : ℕ) : ℕ × (ℕ → ℤ) :=
  let up' : ℕ → ℤ :=
    if 0 < b then fun i => if 1 ≤ i ∧ i ≤ deg then up i * 2 ^ (i * b.toNat) else up i
    else fun i => if i < deg then up i * 2 ^ ((deg - i) * (-b).toNat) else up i
  removeContent up' deg

/-- utils.c 118-122: the synthetic division, `i` from `deg - 1` down to `1`. `mpz_div_2exp` rounds
down. -/
def quoLoop (c : ℤ) (k : ℕ) (deg : ℕ) (f : ℕ → ℤ) : ℕ → ℤ :=
  (List.range (deg - 1)).reverse.foldl
    (fun f t => Function.update f (t + 1) (f (t + 1) + f (t + 2) / 2 ^ k * c)) f

/-- utils.c 124-126: the entries are moved down by one. -/
def moveDown (deg : ℕ) (f : ℕ → ℤ) : ℕ → ℤ :=
  (List.range deg).foldl (fun f i => Function.update f i (f (i + 1))) f

/-- utils.c 108-128 (`USOLVEnumer_quotient`) and usolve.c 366-388 (`numer_quotient_uint`), for
`*deg ≥ 1` (for `*deg = 0` the code computes with `*deg - 1 = 2^64 - 1`: `none`). -/
def numerQuotient (up : ℕ → ℤ) (deg : ℕ) (c : ℤ) (k : ℕ) : Option ((ℕ → ℤ) × ℕ) :=
  if deg = 0 then none
  else
    let f := fun i => if i ≤ deg then up i * 2 ^ ((deg - 1) * k) else up i
    let g := moveDown deg (quoLoop c k deg f)
    some ((removeContent g (deg - 1)).2, deg - 1)

/-! ### binary content -/

theorem trailing_spec (fuel : ℕ) : ∀ n c : ℕ, n ≠ 0 → n < 2 ^ fuel → (2 ^ c ∣ n ↔ c ≤ trailing fuel n) := by
  induction fuel with
  | zero => intro n c h h'; omega
  | succ f ih =>
    intro n c hn hlt
    rw [pow_succ] at hlt
    unfold trailing
    split
    · rename_i he
      obtain ⟨m, rfl⟩ : ∃ m, n = 2 * m := ⟨n / 2, by omega⟩
      cases c with
      | zero => simp
      | succ c =>
        rw [pow_succ, mul_comm (2 ^ c), Nat.mul_dvd_mul_iff_left (by omega), Nat.mul_div_cancel_left m (by omega),
          ih m c (by omega) (by omega)]
        omega
    · rename_i he
      cases c with
      | zero => simp
      | succ c =>
        refine iff_of_false (fun h => he ?_) (by omega)
        exact Nat.mod_eq_zero_of_dvd ((dvd_pow_self 2 (by omega)).trans h)

theorem scan1_spec {x : ℤ} (hx : x ≠ 0) (c : ℕ) : (2 : ℤ) ^ c ∣ x ↔ c ≤ scan1 x := by
  unfold scan1
  rw [← trailing_spec _ _ c (Int.natAbs_ne_zero.mpr hx) (Nat.size_le.mp le_rfl), ← Int.natCast_dvd]
  push_cast; rfl

theorem skipZeros_spec (up : ℕ → ℤ) (n i deg : ℕ) (hd : i + n = deg) (h : up deg ≠ 0) :
    i ≤ skipZeros up n i ∧ skipZeros up n i ≤ deg ∧ up (skipZeros up n i) ≠ 0 ∧
      ∀ j, i ≤ j → j < skipZeros up n i → up j = 0 := by
  induction n generalizing i with
  | zero => simp only [skipZeros]; subst hd; refine ⟨le_rfl, le_rfl, h, fun j h1 h2 => ?_⟩; omega
  | succ n ih =>
    simp only [skipZeros]
    split
    · rename_i h0
      obtain ⟨h1, h2, h3, h4⟩ := ih (i + 1) (by omega)
      refine ⟨by omega, h2, h3, fun j hj1 hj2 => ?_⟩
      rcases Nat.eq_or_lt_of_le hj1 with rfl | hj
      · exact h0
      · exact h4 j hj hj2
    · rename_i h0
      exact ⟨le_rfl, by omega, h0, fun j h1 h2 => by omega⟩

theorem contLoop_spec (up : ℕ → ℤ) (n i c d : ℕ) :
    d ≤ contLoop up n i c ↔ d ≤ c ∧ ∀ j, i ≤ j → j < i + n → (2 : ℤ) ^ d ∣ up j := by
  induction n generalizing i c with
  | zero => simp only [contLoop]; exact ⟨fun h => ⟨h, fun j h1 h2 => by omega⟩, fun h => h.1⟩
  | succ n ih =>
    simp only [contLoop]
    by_cases hc : c = 0
    · subst hc
      simp only [if_true]
      refine ⟨fun h => ⟨h, fun j _ _ => ?_⟩, fun h => h.1⟩
      rw [Nat.le_zero.mp h]; simp
    · rw [if_neg hc, ih]
      have key : d ≤ (if up i ≠ 0 then (if scan1 (up i) < c then scan1 (up i) else c) else c)
          ↔ d ≤ c ∧ (2 : ℤ) ^ d ∣ up i := by
        by_cases h0 : up i = 0
        · simp [h0]
        · rw [if_pos h0, scan1_spec h0]; split <;> omega
      rw [key]
      constructor
      · rintro ⟨⟨h1, h2⟩, h3⟩
        refine ⟨h1, fun j hj1 hj2 => ?_⟩
        rcases Nat.eq_or_lt_of_le hj1 with rfl | hj
        · exact h2
        · exact h3 j hj (by omega)
      · rintro ⟨h1, h2⟩
        exact ⟨⟨h1, h2 i le_rfl (by omega)⟩, fun j hj1 hj2 => h2 j (by omega) (by omega)⟩

/-- The returned number is the largest power of two dividing all coefficients. -/
theorem removeContent_fst {up : ℕ → ℤ} {deg : ℕ} (h : up deg ≠ 0) (d : ℕ) :
    d ≤ (removeContent up deg).1 ↔ ∀ j ≤ deg, (2 : ℤ) ^ d ∣ up j := by
  unfold removeContent
  rw [if_neg h]
  obtain ⟨-, h2, h3, h4⟩ := skipZeros_spec up deg 0 deg (by omega) h
  generalize hi : skipZeros up deg 0 = i at *
  have key : d ≤ contLoop up (deg + 1 - i) i (scan1 (up i)) ↔ ∀ j ≤ deg, (2 : ℤ) ^ d ∣ up j := by
    rw [contLoop_spec, ← scan1_spec h3]
    constructor
    · rintro ⟨h5, h6⟩ j hj
      rcases Nat.lt_or_ge j i with hlt | hge
      · rw [h4 j (Nat.zero_le _) hlt]; simp
      · exact h6 j hge (by omega)
    · exact fun h5 => ⟨h5 i h2, fun j hj1 hj2 => h5 j (by omega)⟩
  simp only
  split
  · rename_i hc; rw [hc] at key; exact key
  · exact key

theorem removeContent_snd (up : ℕ → ℤ) (deg j : ℕ) :
    (j ≤ deg → (removeContent up deg).2 j * 2 ^ (removeContent up deg).1 = up j) ∧
    (deg < j → (removeContent up deg).2 j = up j) := by
  by_cases h : up deg = 0
  · simp [removeContent, h]
  have hall := (removeContent_fst h (removeContent up deg).1).mp le_rfl
  unfold removeContent at hall ⊢
  rw [if_neg h] at hall ⊢
  simp only at hall ⊢
  split at hall
  · rename_i hc; simp [hc]
  · rename_i hc
    rw [if_neg hc]
    refine ⟨fun hj => ?_, fun hj => ?_⟩
    · simp only [hj, if_true]
      exact Int.ediv_mul_cancel (hall j hj)
    · simp only [if_neg (show ¬ j ≤ deg by omega)]

theorem removeContent_poly (up : ℕ → ℤ) (deg : ℕ) :
    Polynomial.C (2 ^ (removeContent up deg).1) * toPoly (removeContent up deg).2 deg = toPoly up deg := by
  ext i
  rw [Polynomial.coeff_C_mul, coeff_toPoly, coeff_toPoly]
  split
  · rename_i hi
    rw [mul_comm]; exact (removeContent_snd up deg i).1 hi
  · simp

/-- After the removal some coefficient is odd. -/
theorem removeContent_odd {up : ℕ → ℤ} {deg : ℕ} (h : up deg ≠ 0) :
    ∃ j ≤ deg, ¬ (2 : ℤ) ∣ (removeContent up deg).2 j := by
  by_contra hcon
  push Not at hcon
  have := (removeContent_fst h ((removeContent up deg).1 + 1)).mpr fun j hj => by
    rw [← (removeContent_snd up deg j).1 hj, pow_succ, mul_comm]
    exact mul_dvd_mul_right (hcon j hj) _
  omega

theorem removeContent_ne {up : ℕ → ℤ} {deg : ℕ} (h : up deg ≠ 0) : (removeContent up deg).2 deg ≠ 0 := by
  intro h0
  have := (removeContent_snd up deg deg).1 le_rfl
  rw [h0, zero_mul] at this
  exact h this.symm

/-! ### rescaling -/

theorem rescale_pos {up : ℕ → ℤ} {b : ℤ} {deg : ℕ} (hb : 0 < b) :
    Polynomial.C (2 ^ (rescale up b deg).1) * toPoly (rescale up b deg).2 deg
      = (toPoly up deg).comp (Polynomial.C (2 ^ b.toNat) * Polynomial.X) := by
  unfold rescale
  simp only [if_pos hb]
  rw [removeContent_poly]
  simp only [toPoly, Polynomial.sum_comp, Polynomial.mul_comp, Polynomial.C_comp, Polynomial.X_pow_comp]
  refine Finset.sum_congr rfl fun i hi => ?_
  have hi' : i ≤ deg := Nat.lt_succ_iff.mp (Finset.mem_range.mp hi)
  rw [mul_pow, ← Polynomial.C_pow, ← mul_assoc, ← Polynomial.C_mul, ← pow_mul, mul_comm b.toNat i]
  rcases Nat.eq_zero_or_pos i with rfl | h
  · simp
  · simp [hi', show i ≠ 0 by omega]

/-- Effect of the rescaling on values, for both signs of `b`. -/
theorem rescale_aeval {K : Type*} [Field K] [CharZero K] (up : ℕ → ℤ) (b : ℤ) (deg : ℕ) (x : K) :
    2 ^ (rescale up b deg).1 * Polynomial.aeval x (toPoly (rescale up b deg).2 deg)
      = (if 0 < b then 1 else 2 ^ (deg * (-b).toNat)) * Polynomial.aeval (2 ^ b * x) (toPoly up deg) := by
  have h2 : (2 : K) ≠ 0 := two_ne_zero
  have key := fun up' : ℕ → ℤ => congrArg (Polynomial.aeval x) (removeContent_poly up' deg)
  unfold rescale
  split
  · rename_i hb
    have := key fun i => if 1 ≤ i ∧ i ≤ deg then up i * 2 ^ (i * b.toNat) else up i
    rw [map_mul, Polynomial.aeval_C] at this
    simp only [eq_intCast, Int.cast_pow, Int.cast_ofNat] at this
    rw [this, aeval_toPoly, aeval_toPoly, one_mul]
    refine Finset.sum_congr rfl fun i hi => ?_
    have hi' : i ≤ deg := Nat.lt_succ_iff.mp (Finset.mem_range.mp hi)
    obtain ⟨n, rfl⟩ := Int.eq_ofNat_of_zero_le hb.le
    rw [mul_pow]
    simp only [Int.toNat_natCast, zpow_natCast]
    rcases Nat.eq_zero_or_pos i with rfl | h
    · simp
    · simp only [show 1 ≤ i from h, hi', and_self, if_true, Int.cast_mul, Int.cast_pow, Int.cast_ofNat]
      rw [← pow_mul, mul_comm n i]; ring
  · rename_i hb
    have := key fun i => if i < deg then up i * 2 ^ ((deg - i) * (-b).toNat) else up i
    rw [map_mul, Polynomial.aeval_C] at this
    simp only [eq_intCast, Int.cast_pow, Int.cast_ofNat] at this
    rw [this, aeval_toPoly, aeval_toPoly, Finset.mul_sum]
    refine Finset.sum_congr rfl fun i hi => ?_
    have hi' : i ≤ deg := Nat.lt_succ_iff.mp (Finset.mem_range.mp hi)
    obtain ⟨n, hn⟩ : ∃ n : ℕ, b = -(n : ℤ) := ⟨(-b).toNat, by omega⟩
    subst hn
    rw [mul_pow, zpow_neg, zpow_natCast, neg_neg, Int.toNat_natCast]
    obtain ⟨j, rfl⟩ := Nat.exists_eq_add_of_le hi'
    rw [inv_pow, ← pow_mul, Nat.add_sub_cancel_left, add_mul, pow_add, mul_comm n i]
    split
    · push_cast; field_simp
    · have : j = 0 := by omega
      subst this; simp; field_simp

theorem rescale_ne {up : ℕ → ℤ} {b : ℤ} {deg : ℕ} (h : up deg ≠ 0) : (rescale up b deg).2 deg ≠ 0 := by
  unfold rescale
  apply removeContent_ne
  split
  · simp only
    split
    · exact mul_ne_zero h (by positivity)
    · exact h
  · simpa using h

theorem rescale_odd {up : ℕ → ℤ} {b : ℤ} {deg : ℕ} (h : up deg ≠ 0) :
    ∃ j ≤ deg, ¬ (2 : ℤ) ∣ (rescale up b deg).2 j := by
  unfold rescale
  apply removeContent_odd
  split
  · simp only
    split
    · exact mul_ne_zero h (by positivity)
    · exact h
  · simpa using h

/-! ### division by a linear factor -/

theorem moveDown_eq (deg : ℕ) (f : ℕ → ℤ) (i : ℕ) :
    moveDown deg f i = if i < deg then f (i + 1) else f i := by
  unfold moveDown
  induction deg generalizing i with
  | zero => simp
  | succ n ih =>
    rw [List.range_succ, List.foldl_append, List.foldl_cons, List.foldl_nil]
    by_cases hi : i = n
    · subst hi
      rw [Function.update_self, ih, if_neg (by omega), if_pos (by omega)]
    · rw [Function.update_of_ne hi, ih]
      by_cases h : i < n
      · rw [if_pos h, if_pos (by omega)]
      · rw [if_neg h, if_neg (by omega)]

theorem quoLoop_aux (c : ℤ) (k n : ℕ) (f : ℕ → ℤ) :
    let r := (List.range n).reverse.foldl
      (fun f t => Function.update f (t + 1) (f (t + 1) + f (t + 2) / 2 ^ k * c)) f
    (∀ i, i = 0 ∨ n < i → r i = f i) ∧ ∀ i, 1 ≤ i → i ≤ n → r i = f i + r (i + 1) / 2 ^ k * c := by
  induction n generalizing f with
  | zero => simp; intro i h1 h2; omega
  | succ n ih =>
    rw [List.range_succ, List.reverse_append, List.reverse_cons, List.reverse_nil, List.nil_append,
      List.cons_append, List.nil_append, List.foldl_cons]
    have := ih (Function.update f (n + 1) (f (n + 1) + f (n + 2) / 2 ^ k * c))
    revert this
    generalize (List.range n).reverse.foldl
      (fun (f : ℕ → ℤ) t => Function.update f (t + 1) (f (t + 1) + f (t + 2) / 2 ^ k * c)) _ = r
    simp only
    rintro ⟨h1, h2⟩
    refine ⟨fun i hi => ?_, fun i hi1 hi2 => ?_⟩
    · rw [h1 i (by omega), Function.update_of_ne (by omega)]
    · by_cases hi : i = n + 1
      · subst hi
        rw [h1 _ (Or.inr (by omega)), Function.update_self, h1 _ (Or.inr (by omega)),
          Function.update_of_ne (by omega)]
      · rw [h2 i hi1 (by omega), Function.update_of_ne (by omega)]

theorem quoLoop_spec (c : ℤ) (k deg : ℕ) (up f : ℕ → ℤ)
    (hf : ∀ i ≤ deg, f i = up i * 2 ^ ((deg - 1) * k)) :
    quoLoop c k deg f deg = up deg * 2 ^ ((deg - 1) * k) ∧
    (∀ i, 1 ≤ i → i ≤ deg → (2 : ℤ) ^ ((i - 1) * k) ∣ quoLoop c k deg f i) ∧
    ∀ i, 1 ≤ i → i < deg →
      quoLoop c k deg f i = up i * 2 ^ ((deg - 1) * k) + quoLoop c k deg f (i + 1) / 2 ^ k * c := by
  obtain ⟨h1, h2⟩ := quoLoop_aux c k (deg - 1) f
  change (∀ i, i = 0 ∨ deg - 1 < i → quoLoop c k deg f i = f i) at h1
  change (∀ i, 1 ≤ i → i ≤ deg - 1 → quoLoop c k deg f i = f i + quoLoop c k deg f (i + 1) / 2 ^ k * c) at h2
  have hlast : quoLoop c k deg f deg = up deg * 2 ^ ((deg - 1) * k) := by
    rw [h1 deg (by omega), hf deg le_rfl]
  have hrec : ∀ i, 1 ≤ i → i < deg →
      quoLoop c k deg f i = up i * 2 ^ ((deg - 1) * k) + quoLoop c k deg f (i + 1) / 2 ^ k * c := by
    intro i hi1 hi2
    rw [h2 i hi1 (by omega), hf i (by omega)]
  refine ⟨hlast, ?_, hrec⟩
  have : ∀ m i, 1 ≤ i → i + m = deg → (2 : ℤ) ^ ((i - 1) * k) ∣ quoLoop c k deg f i := by
    intro m
    induction m with
    | zero =>
      intro i hi1 hi2
      obtain rfl : i = deg := by omega
      rw [hlast]; exact Dvd.intro_left _ rfl
    | succ m ih =>
      intro i hi1 hi2
      rw [hrec i hi1 (by omega)]
      refine dvd_add ?_ ?_
      · exact Dvd.dvd.mul_left (pow_dvd_pow _ (Nat.mul_le_mul_right k (by omega))) _
      · obtain ⟨d, hd⟩ := ih (i + 1) (by omega) (by omega)
        rw [hd, Nat.add_sub_cancel]
        obtain ⟨j, rfl⟩ : ∃ j, i = j + 1 := ⟨i - 1, by omega⟩
        rw [Nat.add_sub_cancel, Nat.succ_mul, pow_add, mul_comm ((2 : ℤ) ^ (j * k)), mul_assoc,
          Int.mul_ediv_cancel_left _ (by positivity), mul_assoc]
        exact Dvd.intro _ rfl
  intro i hi1 hi2
  exact this (deg - i) i hi1 (by omega)

/-- The quotient by `X - c / 2^k` when `c / 2^k` is a root, up to a power of two. -/
theorem numerQuotient_spec {K : Type*} [Field K] [CharZero K] {up : ℕ → ℤ} {deg : ℕ} {c : ℤ} {k : ℕ}
    (hdeg : deg ≠ 0) (hroot : Polynomial.aeval ((c : K) / 2 ^ k) (toPoly up deg) = 0) :
    ∃ q e, numerQuotient up deg c k = some (q, deg - 1) ∧
      ∀ x : K, 2 ^ ((deg - 1) * k) * Polynomial.aeval x (toPoly up deg)
        = 2 ^ e * ((x - c / 2 ^ k) * Polynomial.aeval x (toPoly q (deg - 1))) := by
  set f : ℕ → ℤ := fun i => if i ≤ deg then up i * 2 ^ ((deg - 1) * k) else up i with hfdef
  set g := moveDown deg (quoLoop c k deg f) with hg
  refine ⟨(removeContent g (deg - 1)).2, (removeContent g (deg - 1)).1, by simp [numerQuotient, hdeg, hg, hfdef], ?_⟩
  have hcont : ∀ x : K, 2 ^ (removeContent g (deg - 1)).1
      * Polynomial.aeval x (toPoly (removeContent g (deg - 1)).2 (deg - 1))
      = ∑ i ∈ Finset.range deg, (quoLoop c k deg f (i + 1) : K) * x ^ i := by
    intro x
    have := congrArg (Polynomial.aeval x) (removeContent_poly g (deg - 1))
    rw [map_mul, Polynomial.aeval_C] at this
    simp only [eq_intCast, Int.cast_pow, Int.cast_ofNat] at this
    rw [this, aeval_toPoly, show deg - 1 + 1 = deg by omega]
    refine Finset.sum_congr rfl fun i hi => ?_
    rw [hg, moveDown_eq, if_pos (Finset.mem_range.mp hi)]
  obtain ⟨hlast, hdvd, hrec⟩ := quoLoop_spec c k deg up f fun i hi => by simp [hfdef, hi]
  generalize quoLoop c k deg f = r at *
  have h2 : (2 : K) ≠ 0 := two_ne_zero
  set s : K := c / 2 ^ k with hs
  have hrecK : ∀ i, 1 ≤ i → i < deg → (r i : K) = up i * 2 ^ ((deg - 1) * k) + s * r (i + 1) := by
    intro i hi1 hi2
    rw [hrec i hi1 hi2]
    obtain ⟨d, hd⟩ := hdvd (i + 1) (by omega) (by omega)
    rw [Nat.add_sub_cancel] at hd
    have hk : (2 : ℤ) ^ k ∣ r (i + 1) := by
      rw [hd]
      exact Dvd.dvd.mul_right (pow_dvd_pow _ (Nat.le_mul_of_pos_left k hi1)) _
    obtain ⟨w, hw⟩ := hk
    rw [hw, Int.mul_ediv_cancel_left _ (by positivity), hs]
    push_cast
    field_simp
  obtain ⟨n, rfl⟩ : ∃ n, deg = n + 1 := ⟨deg - 1, by omega⟩
  rw [Nat.add_sub_cancel] at *
  have hprod : ∀ x : K, (x - s) * ∑ i ∈ Finset.range (n + 1), (r (i + 1) : K) * x ^ i
      = 2 ^ (n * k) * (Polynomial.aeval x (toPoly up (n + 1)) - up 0) - s * r 1 := by
    intro x
    rw [aeval_toPoly, Finset.sum_range_succ' (fun i => (up i : K) * x ^ i)]
    simp only [pow_zero, mul_one, add_sub_cancel_right]
    rw [sub_mul, Finset.mul_sum, Finset.mul_sum, Finset.mul_sum]
    rw [Finset.sum_range_succ' (fun i => s * ((r (i + 1) : K) * x ^ i)),
      Finset.sum_range_succ (fun i => x * ((r (i + 1) : K) * x ^ i)),
      Finset.sum_range_succ (fun i => 2 ^ (n * k) * ((up (i + 1) : K) * x ^ (i + 1)))]
    have : ∀ i ∈ Finset.range n, x * ((r (i + 1) : K) * x ^ i)
        = 2 ^ (n * k) * ((up (i + 1) : K) * x ^ (i + 1)) + s * ((r (i + 1 + 1) : K) * x ^ (i + 1)) := by
      intro i hi
      have := Finset.mem_range.mp hi
      rw [hrecK (i + 1) (by omega) (by omega)]; ring
    rw [Finset.sum_congr rfl this, Finset.sum_add_distrib, hlast]
    push_cast
    ring
  intro x
  have h0 := hprod s
  rw [hroot] at h0
  have hx := hprod x
  have hc := hcont x
  have e1 : 2 ^ (removeContent g n).1 * ((x - s) * Polynomial.aeval x (toPoly (removeContent g n).2 n))
      = (x - s) * (2 ^ (removeContent g n).1 * Polynomial.aeval x (toPoly (removeContent g n).2 n)) := by ring
  rw [e1, hc, hx]
  linear_combination h0

theorem numerQuotient_ne {up : ℕ → ℤ} {deg : ℕ} {c : ℤ} {k : ℕ} {q : ℕ → ℤ} {d : ℕ} (h : up deg ≠ 0)
    (hq : numerQuotient up deg c k = some (q, d)) : deg = d + 1 ∧ q d ≠ 0 := by
  unfold numerQuotient at hq
  split at hq
  · cases hq
  rename_i hdeg
  simp only [Option.some.injEq, Prod.mk.injEq] at hq
  obtain ⟨h1, h2⟩ := hq
  subst h2
  refine ⟨by omega, ?_⟩
  rw [← h1]
  apply removeContent_ne
  rw [moveDown_eq, if_pos (by omega), show deg - 1 + 1 = deg by omega,
    (quoLoop_spec c k deg up _ fun i hi => if_pos hi).1]
  exact mul_ne_zero h (by positivity)

end Verif.UScale
