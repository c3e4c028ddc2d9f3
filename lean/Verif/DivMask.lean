import Mathlib.Data.Nat.Bitwise
import Mathlib.Tactic.Ring
import Mathlib.Tactic.Linarith

/-! Model of the short divisor masks and of the divisibility test, `src/neogb/hash.c`. -/

namespace Verif.DivMask

/-- Outcome of the loop pattern used in hash.c for testing all entries of a vector
`for (i = 0; i < evl-1; i += 2) { if (!P(i) || !P(i+1)) return 0; } return P(evl-1);`
(hash.c 495-503, 852-861). -/
def pairLoop (P : Nat → Bool) (evl i : Nat) : Bool :=
  if i < evl - 1 then
    if P i && P (i + 1) then pairLoop P evl (i + 2) else false
  else P (evl - 1)
termination_by evl - i

theorem pairLoop_iff (P : Nat → Bool) (evl i : Nat) (h1 : 1 ≤ evl) (hi : i ≤ evl) :
    pairLoop P evl i = true ↔ (∀ j, i ≤ j → j < evl → P j = true) ∧ P (evl - 1) = true := by
  fun_induction pairLoop P evl i with
  | case1 i hc hp ih =>
    rw [ih (by omega)]
    rw [Bool.and_eq_true] at hp
    constructor
    · rintro ⟨h, h'⟩
      refine ⟨fun j hj1 hj2 => ?_, h'⟩
      by_cases e1 : j = i
      · rw [e1]; exact hp.1
      by_cases e2 : j = i + 1
      · rw [e2]; exact hp.2
      exact h j (by omega) hj2
    · rintro ⟨h, h'⟩
      exact ⟨fun j hj1 hj2 => h j (by omega) hj2, h'⟩
  | case2 i hc hp =>
    simp only [Bool.false_eq_true, false_iff]
    rintro ⟨h, -⟩
    apply hp
    rw [Bool.and_eq_true]
    exact ⟨h i (le_refl _) (by omega), h (i + 1) (by omega) (by omega)⟩
  | case3 i hc =>
    constructor
    · intro h
      refine ⟨fun j hj1 hj2 => ?_, h⟩
      rw [show j = evl - 1 by omega]; exact h
    · exact fun h => h.2

theorem pairLoop_zero (P : Nat → Bool) (evl : Nat) (h1 : 1 ≤ evl) :
    pairLoop P evl 0 = true ↔ ∀ j < evl, P j = true := by
  rw [pairLoop_iff P evl 0 h1 (Nat.zero_le _)]
  constructor
  · exact fun h j hj => h.1 j (Nat.zero_le _) hj
  · exact fun h => ⟨fun j _ hj => h j hj, h _ (by omega)⟩

/-- The divisor mask parameters of a hash table (data.h, hash.c 55-95): `ndv` masked variables at the
positions `dv`, `bpv` bits (thresholds) per variable, thresholds `dm`. -/
structure Params where
  ndv : Nat
  bpv : Nat
  dv : Nat → Nat
  dm : Nat → Nat

/-- Inner loop of `generate_short_divmask`, hash.c 407-412: bits `ctr .. ctr+cnt-1` for one entry. -/
def maskVar (dm : Nat → Nat) (x : Nat) : Nat → Nat → Nat → Nat
  | 0, _, res => res
  | cnt + 1, ctr, res =>
    maskVar dm x cnt (ctr + 1) (if x ≥ dm ctr then res ||| (1 <<< ctr) else res)

/-- Outer loop of `generate_short_divmask`, hash.c 406-413. -/
def maskVars (p : Params) (a : Nat → Nat) : Nat → Nat → Nat → Nat → Nat
  | 0, _, _, res => res
  | cnt + 1, i, ctr, res =>
    maskVars p a cnt (i + 1) (ctr + p.bpv) (maskVar p.dm (a (p.dv i)) p.bpv ctr res)

/-- `generate_short_divmask`, hash.c 394-416.  The result type has 32 bits; `ndv * bpv ≤ 32` holds for
the parameters set in `initialize_basis_hash_table` (theorem `initParams_bits`), so no bit is lost. -/
def mask (p : Params) (a : Nat → Nat) : Nat := maskVars p a p.ndv 0 0 0

/-- `hash.c 57-63`: number of masked variables and bits per variable for `nv` variables. -/
def initBpv (nv : Nat) : Nat := if 32 / nv = 0 then 1 else 32 / nv
def initNdv (nv : Nat) : Nat := if nv < 32 then nv else 32

/-- `hash.c 69-93`: positions of the masked variables, without and with an elimination block
(indices `0 ≤ c < ndv`). -/
def initDv (nv nev c : Nat) : Nat :=
  if nev = 0 then c + 1
  else if nev ≥ initNdv nv then c + 1
  else if c < nev then c + 1
  else (nev + 1) + 1 + (c - nev)

/-- `calculate_divmask`, hash.c 430-449: maximal resp. minimal entry at one position. -/
def maxMin : List Nat → Nat → Nat → Nat × Nat
  | [], mx, mn => (mx, mn)
  | e :: es, mx, mn =>
    if e > mx then maxMin es e mn
    else if e < mn then maxMin es mx e
    else maxMin es mx mn

/-- `calculate_divmask`, hash.c 452-459: thresholds from the exponents `es i` (first entry `e0 i`)
found at the `i`-th masked position. Index `i * bpv + j`. -/
def calcDm (bpv : Nat) (e0 : Nat → Nat) (es : Nat → List Nat) (c : Nat) : Nat :=
  let i := c / bpv
  let j := c % bpv
  let mm := maxMin (es i) (e0 i) (e0 i)
  let steps := (mm.1 - mm.2) / bpv
  (if steps = 0 then 1 else steps) + j

/-- `check_monomial_division`, hash.c 476-505 with stored masks `sa`, `sb`: is `a` divisible by `b`?
The mask test `sb & ~sa` on 32 bit words is non zero iff some bit of `sb` is not set in `sa`. -/
def checkDivision (evl : Nat) (sa sb : Nat) (ea eb : Nat → Nat) : Bool :=
  if sb &&& (sa ^^^ (2 ^ 32 - 1)) ≠ 0 then false
  else pairLoop (fun i => !decide (ea i < eb i)) evl 0

/-- The search loop of `check_lm_divisibility_and_insert_in_hash_table`, hash.c 570-588 (the same loop
is used in symbol.c 515-530, `find_multiplied_reducer`): position of the first lead monomial `lm`
(mask, exponent vector) dividing `a`. -/
def findDivisor (evl : Nat) (nsdm : Nat) (a : Nat → Nat) : List (Nat × (Nat → Nat)) → Option Nat
  | [] => none
  | (s, e) :: rest =>
    if s &&& nsdm ≠ 0 then (findDivisor evl nsdm a rest).map (· + 1)
    else if (List.range evl).all (fun j => !decide (e j > a j)) then some 0
    else (findDivisor evl nsdm a rest).map (· + 1)

/-! ### Lemmas -/

theorem maskVar_testBit (dm : Nat → Nat) (x : Nat) : ∀ (cnt ctr res b : Nat),
    (maskVar dm x cnt ctr res).testBit b = true ↔
      res.testBit b = true ∨ (ctr ≤ b ∧ b < ctr + cnt ∧ dm b ≤ x)
  | 0, ctr, res, b => by simp only [maskVar]; constructor
                         · exact fun h => Or.inl h
                         · rintro (h | h)
                           · exact h
                           · omega
  | cnt + 1, ctr, res, b => by
    rw [maskVar, maskVar_testBit dm x cnt]
    have hb : (1 <<< ctr).testBit b = true ↔ b = ctr := by
      rw [Nat.one_shiftLeft, Nat.testBit_two_pow]
      simp [eq_comm]
    split_ifs with h
    · rw [Nat.testBit_or, Bool.or_eq_true, hb]
      constructor
      · rintro ((h1 | h1) | h1)
        · exact Or.inl h1
        · right; subst h1; exact ⟨le_refl _, by omega, h⟩
        · right; exact ⟨by omega, by omega, h1.2.2⟩
      · rintro (h1 | h1)
        · exact Or.inl (Or.inl h1)
        · by_cases e : b = ctr
          · exact Or.inl (Or.inr e)
          · exact Or.inr ⟨by omega, by omega, h1.2.2⟩
    · constructor
      · rintro (h1 | h1)
        · exact Or.inl h1
        · exact Or.inr ⟨by omega, by omega, h1.2.2⟩
      · rintro (h1 | h1)
        · exact Or.inl h1
        · by_cases e : b = ctr
          · subst e; exact absurd h1.2.2 (by omega)
          · exact Or.inr ⟨by omega, by omega, h1.2.2⟩

theorem maskVars_testBit (p : Params) (a : Nat → Nat) : ∀ (cnt i ctr res b : Nat),
    (maskVars p a cnt i ctr res).testBit b = true ↔
      res.testBit b = true ∨ ∃ t < cnt, ctr + t * p.bpv ≤ b ∧ b < ctr + (t + 1) * p.bpv ∧
        p.dm b ≤ a (p.dv (i + t))
  | 0, i, ctr, res, b => by simp [maskVars]
  | cnt + 1, i, ctr, res, b => by
    rw [maskVars, maskVars_testBit p a cnt, maskVar_testBit]
    constructor
    · rintro ((h | h) | ⟨t, ht, h1, h2, h3⟩)
      · exact Or.inl h
      · exact Or.inr ⟨0, by omega, by simpa using h.1, by simpa using h.2.1, h.2.2⟩
      · refine Or.inr ⟨t + 1, by omega, ?_, ?_, ?_⟩
        · rw [Nat.add_mul]; omega
        · rw [Nat.add_mul] at h2 ⊢; rw [Nat.add_mul]; omega
        · rw [show i + (t + 1) = i + 1 + t by omega]; exact h3
    · rintro (h | ⟨t, ht, h1, h2, h3⟩)
      · exact Or.inl (Or.inl h)
      · cases t with
        | zero => exact Or.inl (Or.inr ⟨by simpa using h1, by simpa using h2, h3⟩)
        | succ t =>
          refine Or.inr ⟨t, by omega, ?_, ?_, ?_⟩
          · rw [Nat.add_mul] at h1; omega
          · rw [Nat.add_mul] at h2 ⊢; rw [Nat.add_mul] at h2; omega
          · rw [show i + 1 + t = i + (t + 1) by omega]; exact h3

theorem mask_testBit (p : Params) (a : Nat → Nat) (b : Nat) :
    (mask p a).testBit b = true ↔
      ∃ t < p.ndv, t * p.bpv ≤ b ∧ b < (t + 1) * p.bpv ∧ p.dm b ≤ a (p.dv t) := by
  rw [mask, maskVars_testBit]
  simp

theorem mask_lt (p : Params) (a : Nat → Nat) : mask p a < 2 ^ (p.ndv * p.bpv) := by
  apply Nat.lt_pow_two_of_testBit
  intro i hi
  by_contra hc
  rw [Bool.not_eq_false, mask_testBit] at hc
  obtain ⟨t, ht, h1, h2, -⟩ := hc
  have : (t + 1) * p.bpv ≤ p.ndv * p.bpv := Nat.mul_le_mul_right _ (by omega)
  omega

/-- Masks are monotone. -/
theorem mask_mono (p : Params) (a b : Nat → Nat) (h : ∀ i < p.ndv, b (p.dv i) ≤ a (p.dv i)) (k : Nat) :
    (mask p b).testBit k = true → (mask p a).testBit k = true := by
  rw [mask_testBit, mask_testBit]
  rintro ⟨t, ht, h1, h2, h3⟩
  exact ⟨t, ht, h1, h2, h3.trans (h t ht)⟩

theorem and_not_eq_zero (sa sb : Nat) (hb : sb < 2 ^ 32)
    (h : ∀ k, sb.testBit k = true → sa.testBit k = true) : sb &&& (sa ^^^ (2 ^ 32 - 1)) = 0 := by
  apply Nat.eq_of_testBit_eq
  intro k
  rw [Nat.testBit_and, Nat.testBit_xor, Nat.testBit_two_pow_sub_one, Nat.zero_testBit]
  by_cases hk : sb.testBit k = true
  · have hk32 : k < 32 := by
      by_contra hc
      rw [Nat.testBit_lt_two_pow (lt_of_lt_of_le hb (Nat.pow_le_pow_right (by omega) (by omega)))] at hk
      exact absurd hk (by simp)
    rw [hk, h k hk]
    simp [hk32]
  · rw [Bool.not_eq_true] at hk
    rw [hk]; simp

theorem initParams_bits (nv : Nat) (h : 1 ≤ nv) : initNdv nv * initBpv nv ≤ 32 := by
  unfold initNdv initBpv
  have := Nat.div_mul_le_self 32 nv
  split_ifs with h1 h2 h2
  · omega
  · rw [Nat.mul_comm]; exact this
  · omega
  · have : 32 / nv ≤ 1 := by
      rw [Nat.div_le_iff_le_mul_add_pred (by omega)]; omega
    omega

end Verif.DivMask
