import Mathlib.Tactic.Ring
import Mathlib.Tactic.Linarith
import Mathlib.Tactic.NormNum
import Mathlib.Data.Int.ModEq
import Mathlib.Data.Nat.ModEq

/-! Model of the Barrett reductions of `src/fglm/inner-product.c` and `src/fglm/matrix-mult.c`. -/

namespace Verif.Barrett

/-- Conversion of a 64 bit unsigned value to `int64_t`. -/
def toI64 (x : Nat) : Int := if x % 2 ^ 64 < 2 ^ 63 then ((x % 2 ^ 64 : Nat) : Int)
  else ((x % 2 ^ 64 : Nat) : Int) - 2 ^ 64

/-- 64 bit unsigned subtraction. -/
def subU64 (a b : Nat) : Nat := (a + (2 ^ 64 - b % 2 ^ 64)) % 2 ^ 64

/-- The common body of `MODRED32` (inner-product.c 84-94) and `_MODRED32` (matrix-mult.c 81-93):
`t1 = n >> 30; t2 = (t1*preinv) >> 32; r = n - t2*p;` in `uint64_t`, then two conditional
subtractions in `int64_t`.  The result is the (signed) `r`; it is returned as `uint64_t`, resp.
truncated to `uint32_t`. -/
def modred (n p preinv : Nat) : Int :=
  let t1 := n / 2 ^ 30
  let t2 := (t1 * preinv % 2 ^ 64) / 2 ^ 32
  let r := toI64 (subU64 n (t2 * p % 2 ^ 64))
  let r := if r ≥ p then r - p else r
  let r := if r ≥ p then r - p else r
  r

/-- `MODRED32` of inner-product.c 84-94 returns `uint32_t`. -/
def MODRED32 (n p preinv : Nat) : Nat := (modred n p preinv % 2 ^ 32).toNat

/-- `MODRED32` of matrix-mult.c 95-97: subtracts `p << 31` until the argument is at most that
(`p << 31` computed in `uint64_t`), then calls `_MODRED32`.  The recursion in C has no other exit;
for `p = 0` it would not terminate, represented by `none`. -/
def MODRED32rec (n p preinv : Nat) : Option Nat :=
  let s := p * 2 ^ 31 % 2 ^ 64
  if s = 0 then (if n > 0 then none else some (modred n p preinv % 2 ^ 64).toNat)
  else if n > s then MODRED32rec (n - s) p preinv
  else some (modred n p preinv % 2 ^ 64).toNat
termination_by n
decreasing_by omega

/-- `ADDMODRED32` of inner-product.c 96-101: `neg = p - a` is computed in `uint64_t` and stored in
a `long`; the comparison `neg > b` converts `neg` back to `uint64_t`. -/
def ADDMODRED32 (a b p preinv : Nat) : Nat :=
  let neg := subU64 p a
  if neg > b then MODRED32 ((a + b) % 2 ^ 64) p preinv else MODRED32 (subU64 b neg) p preinv

/-- `mul_mod_barrett`, inner-product.c 103-109 and linalg-fglm.c 75-81.  `c` is `uint32_t`. -/
def mulModBarrett (x y p pi : Nat) : Int :=
  let c : Nat := (x * pi / 2 ^ 32) % 2 ^ 32
  let d : Int := (x : Int) * y - (c : Int) * p
  if d ≥ p then d - p else d

/-- The value `2^(62) / prime` which fglm_core.c (lines 706 and 777) passes as `preinv`: in C the
operator `^` is exclusive or and binds weaker than `/`. -/
def preinvAsWritten (p : Nat) : Nat := Nat.xor 2 (62 / p)

/-- The documented value floor(2^62/p), inner-product.c 75-82. -/
def preinvDoc (p : Nat) : Nat := 2 ^ 62 / p

/-- Core estimate: quotient estimate error for arguments below `p * 2^32`. -/
theorem quot_est (n p : Nat) (hp : 2 ^ 30 < p) (hp2 : p < 2 ^ 31) (hn : n < p * 2 ^ 32) :
    let t1 := n / 2 ^ 30
    let t2 := t1 * preinvDoc p / 2 ^ 32
    t1 * preinvDoc p < 2 ^ 64 ∧ t2 * p ≤ n ∧ n - t2 * p < 4 * p ∧
      (n ≤ 2 ^ 62 → n - t2 * p < 3 * p) := by
  intro t1 t2
  set q := preinvDoc p with hq
  have hq1 : q * p ≤ 2 ^ 62 := Nat.div_mul_le_self _ _
  have hq2 : 2 ^ 62 < q * p + p := by
    have := Nat.lt_div_mul_add (a := 2 ^ 62) (b := p) (by omega)
    simpa [hq, preinvDoc] using this
  have h1 : t1 * 2 ^ 30 ≤ n := Nat.div_mul_le_self _ _
  have h1' : n < t1 * 2 ^ 30 + 2 ^ 30 := by
    have := Nat.lt_div_mul_add (a := n) (b := 2 ^ 30) (by norm_num); exact this
  have h2 : t2 * 2 ^ 32 ≤ t1 * q := Nat.div_mul_le_self _ _
  have h2' : t1 * q < t2 * 2 ^ 32 + 2 ^ 32 := by
    have := Nat.lt_div_mul_add (a := t1 * q) (b := 2 ^ 32) (by norm_num); exact this
  have ht1 : t1 * 2 ^ 30 < p * 2 ^ 32 := lt_of_le_of_lt h1 hn
  have ht1' : t1 < p * 4 := by omega
  refine ⟨?_, ?_, ?_, ?_⟩
  · -- t1 * q * p ≤ t1 * 2^62 < 4 p 2^62 = p 2^64
    have : t1 * q * p < 2 ^ 64 * p := by
      calc t1 * q * p = t1 * (q * p) := by ring
        _ ≤ t1 * 2 ^ 62 := Nat.mul_le_mul_left _ hq1
        _ < p * 4 * 2 ^ 62 := by
            apply Nat.mul_lt_mul_of_pos_right ht1' (by norm_num)
        _ = 2 ^ 64 * p := by ring
    exact Nat.lt_of_mul_lt_mul_right this
  · have : t2 * p * 2 ^ 32 ≤ n * 2 ^ 32 := by
      calc t2 * p * 2 ^ 32 = (t2 * 2 ^ 32) * p := by ring
        _ ≤ (t1 * q) * p := Nat.mul_le_mul_right _ h2
        _ = t1 * (q * p) := by ring
        _ ≤ t1 * 2 ^ 62 := Nat.mul_le_mul_left _ hq1
        _ = t1 * 2 ^ 30 * 2 ^ 32 := by ring
        _ ≤ n * 2 ^ 32 := Nat.mul_le_mul_right _ h1
    exact Nat.le_of_mul_le_mul_right this (by norm_num)
  · have key : n * 2 ^ 32 < t2 * p * 2 ^ 32 + 4 * p * 2 ^ 32 := by
      have a1 : t1 * 2 ^ 62 ≤ t1 * (q * p) + t1 * p := by
        rw [← Nat.mul_add]; exact Nat.mul_le_mul_left t1 hq2.le
      have a2 : t1 * (q * p) ≤ (t2 * 2 ^ 32 + 2 ^ 32) * p := by
        rw [← Nat.mul_assoc]; exact Nat.mul_le_mul_right _ (by omega)
      have a3 : n * 2 ^ 32 < t1 * 2 ^ 62 + 2 ^ 62 := by
        have := Nat.mul_lt_mul_of_pos_right h1' (show 0 < 2 ^ 32 by norm_num)
        calc n * 2 ^ 32 < (t1 * 2 ^ 30 + 2 ^ 30) * 2 ^ 32 := this
          _ = t1 * 2 ^ 62 + 2 ^ 62 := by ring
      have a4 : t1 * p ≤ 2 * p * 2 ^ 32 := by
        have : t1 * p ≤ (p * 4) * 2 ^ 31 := Nat.mul_le_mul (by omega) (by omega)
        calc t1 * p ≤ (p * 4) * 2 ^ 31 := this
          _ = 2 * p * 2 ^ 32 := by ring
      have a5 : (t2 * 2 ^ 32 + 2 ^ 32) * p = t2 * p * 2 ^ 32 + p * 2 ^ 32 := by ring
      have a6 : (2 : Nat) ^ 62 < p * 2 ^ 32 := by omega
      have a7 : 4 * p * 2 ^ 32 = p * 2 ^ 32 + 2 * p * 2 ^ 32 + p * 2 ^ 32 := by ring
      linarith
    have : n < t2 * p + 4 * p := by
      have h : n * 2 ^ 32 < (t2 * p + 4 * p) * 2 ^ 32 := by rw [Nat.add_mul]; exact key
      exact Nat.lt_of_mul_lt_mul_right h
    omega
  · intro hn62
    have ht1b : t1 ≤ 2 ^ 32 := by omega
    have key : n * 2 ^ 32 < t2 * p * 2 ^ 32 + 3 * p * 2 ^ 32 := by
      have a1 : t1 * 2 ^ 62 ≤ t1 * (q * p) + t1 * p := by
        rw [← Nat.mul_add]; exact Nat.mul_le_mul_left t1 hq2.le
      have a2 : t1 * (q * p) ≤ (t2 * 2 ^ 32 + 2 ^ 32) * p := by
        rw [← Nat.mul_assoc]; exact Nat.mul_le_mul_right _ (by omega)
      have a3 : n * 2 ^ 32 < t1 * 2 ^ 62 + 2 ^ 62 := by
        have := Nat.mul_lt_mul_of_pos_right h1' (show 0 < 2 ^ 32 by norm_num)
        calc n * 2 ^ 32 < (t1 * 2 ^ 30 + 2 ^ 30) * 2 ^ 32 := this
          _ = t1 * 2 ^ 62 + 2 ^ 62 := by ring
      have a4 : t1 * p ≤ p * 2 ^ 32 := by
        rw [Nat.mul_comm]; exact Nat.mul_le_mul_left _ ht1b
      have a5 : (t2 * 2 ^ 32 + 2 ^ 32) * p = t2 * p * 2 ^ 32 + p * 2 ^ 32 := by ring
      have a6 : (2 : Nat) ^ 62 < p * 2 ^ 32 := by omega
      have a7 : 3 * p * 2 ^ 32 = p * 2 ^ 32 + p * 2 ^ 32 + p * 2 ^ 32 := by ring
      linarith
    have : n < t2 * p + 3 * p := by
      have h : n * 2 ^ 32 < (t2 * p + 3 * p) * 2 ^ 32 := by rw [Nat.add_mul]; exact key
      exact Nat.lt_of_mul_lt_mul_right h
    omega

theorem mod_of_corr (n m p : Nat) (h : m * p ≤ n) (r : Int)
    (hr : r = (n : Int) - m * p) (hlt : n - m * p < 3 * p) :
    (let r := if r ≥ p then r - p else r
     let r := if r ≥ p then r - p else r
     r) = ((n % p : Nat) : Int) := by
  have hx : n % p = (n - m * p) % p := by
    conv_lhs => rw [show n = (n - m * p) + m * p by omega]
    rw [Nat.add_mul_mod_self_right]
  have hri : r = ((n - m * p : Nat) : Int) := by
    rw [hr]; push_cast [Nat.cast_sub h]; ring
  set x := n - m * p with hxdef
  rw [hx, hri]
  have hp0 : 0 < p := by omega
  rcases Nat.lt_or_ge x p with h1 | h1
  · rw [Nat.mod_eq_of_lt h1]; simp only
    split_ifs <;> omega
  · rcases Nat.lt_or_ge x (2 * p) with h2 | h2
    · have : x % p = x - p := by
        rw [Nat.mod_eq_sub_mod h1, Nat.mod_eq_of_lt (by omega)]
      rw [this]; simp only
      split_ifs <;> omega
    · have : x % p = x - p - p := by
        rw [Nat.mod_eq_sub_mod h1, Nat.mod_eq_sub_mod (by omega), Nat.mod_eq_of_lt (by omega)]
      rw [this]; simp only
      split_ifs <;> omega

/-- Before correction, `r` is exactly `n - t2*p` for arguments below `p*2^32`. -/
theorem r_exact (n p : Nat) (hp : 2 ^ 30 < p) (hp2 : p < 2 ^ 31) (hn : n < p * 2 ^ 32) :
    let t2 := (n / 2 ^ 30 * preinvDoc p % 2 ^ 64) / 2 ^ 32
    t2 = n / 2 ^ 30 * preinvDoc p / 2 ^ 32 ∧ t2 * p ≤ n ∧
    toI64 (subU64 n (t2 * p % 2 ^ 64)) = (n : Int) - t2 * p := by
  obtain ⟨h1, h2, h3, -⟩ := quot_est n p hp hp2 hn
  intro t2
  have e1 : t2 = n / 2 ^ 30 * preinvDoc p / 2 ^ 32 := by
    simp only [t2]; rw [Nat.mod_eq_of_lt h1]
  rw [← e1] at h2 h3
  refine ⟨e1, h2, ?_⟩
  have hn63 : n < 2 ^ 63 := by omega
  have hcc : (t2 : Int) * p = ((t2 * p : Nat) : Int) := by push_cast; ring
  rw [hcc]
  generalize t2 * p = u at h2 h3 ⊢
  have hu : u % 2 ^ 64 = u := Nat.mod_eq_of_lt (by omega)
  have : subU64 n (u % 2 ^ 64) = n - u := by unfold subU64; omega
  rw [this]; unfold toI64; split_ifs <;> omega

theorem modred_correct (n p : Nat) (hp : 2 ^ 30 < p) (hp2 : p < 2 ^ 31) (hn : n ≤ 2 ^ 62) :
    modred n p (preinvDoc p) = ((n % p : Nat) : Int) := by
  have hn' : n < p * 2 ^ 32 := by omega
  obtain ⟨-, -, -, h4⟩ := quot_est n p hp hp2 hn'
  obtain ⟨e1, h2, h3⟩ := r_exact n p hp hp2 hn'
  have h5 := h4 hn
  rw [← e1] at h5
  unfold modred
  exact mod_of_corr n _ p h2 _ (by rw [h3]) h5

/-- For the larger range used with `2^32 * RED_32`, the result is congruent and below `2p`. -/
theorem modred_weak (n p : Nat) (hp : 2 ^ 30 < p) (hp2 : p < 2 ^ 31) (hn : n < p * 2 ^ 32) :
    modred n p (preinvDoc p) ≡ n [ZMOD p] ∧ 0 ≤ modred n p (preinvDoc p) ∧
      modred n p (preinvDoc p) < 2 * p := by
  obtain ⟨-, -, h4, -⟩ := quot_est n p hp hp2 hn
  obtain ⟨e1, h2, h3⟩ := r_exact n p hp hp2 hn
  rw [← e1] at h4
  unfold modred
  simp only
  generalize (n / 2 ^ 30 * preinvDoc p % 2 ^ 64) / 2 ^ 32 = m at *
  rw [h3]
  have hc : ((m : Int) * p) = ((m * p : Nat) : Int) := by push_cast; ring
  refine ⟨?_, ?_, ?_⟩
  · rw [Int.modEq_iff_dvd]
    split_ifs
    · exact ⟨m + 2, by ring⟩
    · exact ⟨m + 1, by ring⟩
    · exact ⟨m, by ring⟩
  · rw [hc]; generalize m * p = u at *; split_ifs <;> omega
  · rw [hc]; generalize m * p = u at *; split_ifs <;> omega

theorem MODRED32_correct (n p : Nat) (hp : 2 ^ 30 < p) (hp2 : p < 2 ^ 31) (hn : n ≤ 2 ^ 62) :
    MODRED32 n p (preinvDoc p) = n % p := by
  unfold MODRED32
  rw [modred_correct n p hp hp2 hn]
  have : n % p < p := Nat.mod_lt _ (by omega)
  omega

theorem MODRED32_weak (n p : Nat) (hp : 2 ^ 30 < p) (hp2 : p < 2 ^ 31) (hn : n < p * 2 ^ 32) :
    MODRED32 n p (preinvDoc p) % p = n % p ∧ MODRED32 n p (preinvDoc p) < 2 * p := by
  obtain ⟨h1, h2, h3⟩ := modred_weak n p hp hp2 hn
  unfold MODRED32
  generalize modred n p (preinvDoc p) = r at *
  obtain ⟨k, rfl⟩ := Int.eq_ofNat_of_zero_le h2
  have h4 : ((k : Int) % 2 ^ 32).toNat = k := by omega
  rw [h4]
  exact ⟨(Int.natCast_modEq_iff.mp h1), by omega⟩

theorem MODRED32rec_correct (p : Nat) (hp : 2 ^ 30 < p) (hp2 : p < 2 ^ 31) :
    ∀ n, n < 2 ^ 64 → MODRED32rec n p (preinvDoc p) = some (n % p) := by
  intro n
  induction n using Nat.strong_induction_on with
  | _ n ih =>
  intro hn
  unfold MODRED32rec
  have hs : p * 2 ^ 31 % 2 ^ 64 = p * 2 ^ 31 := Nat.mod_eq_of_lt (by omega)
  simp only [hs]
  rw [if_neg (by omega)]
  split_ifs with h
  · rw [ih (n - p * 2 ^ 31) (by omega) (by omega)]
    congr 1
    conv_rhs => rw [show n = (n - p * 2 ^ 31) + p * 2 ^ 31 by omega]
    rw [Nat.add_mul_mod_self_left]
  · rw [modred_correct n p hp hp2 (by omega)]
    have : n % p < p := Nat.mod_lt _ (by omega)
    congr 1
    omega

theorem ADDMODRED32_correct (a b p : Nat) (hp : 2 ^ 30 < p) (hp2 : p < 2 ^ 31)
    (hab : a + b ≤ 2 ^ 62) : ADDMODRED32 a b p (preinvDoc p) = (a + b) % p := by
  unfold ADDMODRED32
  simp only
  split_ifs with h
  · rw [Nat.mod_eq_of_lt (show a + b < 2 ^ 64 by omega)]
    exact MODRED32_correct _ _ hp hp2 hab
  · have h1 : subU64 p a = p - a ∧ a ≤ p := by
      unfold subU64 at *; omega
    rw [h1.1] at h ⊢
    have h2 : subU64 b (p - a) = a + b - p := by unfold subU64; omega
    rw [h2, MODRED32_correct _ _ hp hp2 (by omega)]
    conv_rhs => rw [show a + b = (a + b - p) + p by omega]
    rw [Nat.add_mod_right]

theorem mulModBarrett_correct (x y p : Nat) (hp0 : 0 < p) (hy : y < p) (hx : x < 2 ^ 32) :
    mulModBarrett x y p (y * 2 ^ 32 / p) = ((x * y % p : Nat) : Int) := by
  set q := y * 2 ^ 32 / p with hq
  have hq1 : q * p ≤ y * 2 ^ 32 := Nat.div_mul_le_self _ _
  have hq2 : y * 2 ^ 32 < q * p + p := Nat.lt_div_mul_add hp0
  have hqlt : q < 2 ^ 32 := by
    rw [hq, Nat.div_lt_iff_lt_mul hp0]
    rw [Nat.mul_comm (2 ^ 32)]
    exact Nat.mul_lt_mul_of_pos_right hy (by norm_num)
  set c := x * q / 2 ^ 32 with hc
  have hc1 : c * 2 ^ 32 ≤ x * q := Nat.div_mul_le_self _ _
  have hc2 : x * q < c * 2 ^ 32 + 2 ^ 32 := Nat.lt_div_mul_add (by norm_num)
  have hclt : c < 2 ^ 32 := by
    rw [hc, Nat.div_lt_iff_lt_mul (by norm_num)]
    exact Nat.mul_lt_mul_of_lt_of_le hx hqlt.le (by norm_num)
  have h1 : c * p ≤ x * y := by
    have : c * p * 2 ^ 32 ≤ x * y * 2 ^ 32 := by
      calc c * p * 2 ^ 32 = (c * 2 ^ 32) * p := by ring
        _ ≤ (x * q) * p := Nat.mul_le_mul_right _ hc1
        _ = x * (q * p) := by ring
        _ ≤ x * (y * 2 ^ 32) := Nat.mul_le_mul_left _ hq1
        _ = x * y * 2 ^ 32 := by ring
    exact Nat.le_of_mul_le_mul_right this (by norm_num)
  have h2 : x * y < c * p + 2 * p := by
    have : x * y * 2 ^ 32 < (c * p + 2 * p) * 2 ^ 32 := by
      calc x * y * 2 ^ 32 = x * (y * 2 ^ 32) := by ring
        _ ≤ x * (q * p + p) := Nat.mul_le_mul_left _ hq2.le
        _ = (x * q) * p + x * p := by ring
        _ ≤ (x * q) * p + 2 ^ 32 * p := Nat.add_le_add_left (Nat.mul_le_mul_right _ hx.le) _
        _ < (c * 2 ^ 32 + 2 ^ 32) * p + 2 ^ 32 * p :=
            Nat.add_lt_add_right (Nat.mul_lt_mul_of_pos_right hc2 hp0) _
        _ = (c * p + 2 * p) * 2 ^ 32 := by ring
    exact Nat.lt_of_mul_lt_mul_right this
  unfold mulModBarrett
  simp only [← hc, Nat.mod_eq_of_lt hclt]
  have e1 : (x : Int) * y - (c : Int) * p = ((x * y - c * p : Nat) : Int) := by
    push_cast [Nat.cast_sub h1]; ring
  rw [e1]
  have hx : x * y % p = (x * y - c * p) % p := by
    conv_lhs => rw [show x * y = (x * y - c * p) + c * p by omega]
    rw [Nat.add_mul_mod_self_right]
  rw [hx]
  generalize x * y - c * p = z at *
  have hz : z < 2 * p := by omega
  rcases Nat.lt_or_ge z p with h | h
  · rw [Nat.mod_eq_of_lt h, if_neg (by omega)]
  · rw [Nat.mod_eq_sub_mod h, Nat.mod_eq_of_lt (by omega), if_pos (by omega)]; omega

end Verif.Barrett
