import Mathlib.Tactic.Ring
import Mathlib.Tactic.Linarith
import Mathlib.Data.Int.ModEq
import Mathlib.Data.Int.Basic
import Mathlib.Algebra.Order.Ring.Int

/-! Model of the modular inverse routines, `src/neogb/tools.h` lines 42-132. -/

namespace Verif.ModInverse

/-- `x` is representable in a signed two's complement type of `w` bits. -/
def fitsS (w : Nat) (x : Int) : Prop := -(2 ^ (w - 1)) ≤ x ∧ x < 2 ^ (w - 1)

instance (w : Nat) (x : Int) : Decidable (fitsS w x) := by unfold fitsS; infer_instance

/-- The `while (b != 0)` loop, tools.h lines 54-62 (8 bit), 85-93 (16 bit), 116-124 (32 bit).
`w` is the width of the signed type of the locals (16, 32, 64).  The result is the final `d`;
`none` is returned as soon as a product or difference leaves the range of the type
(signed overflow, or an implementation defined narrowing for the 16 bit variant). -/
def loop (w : Nat) (a b c d : Int) : Option Int :=
  if _hb : b = 0 then some d
  else
    let f := b
    let e := a.tdiv f
    let b' := a - e * f
    let f' := c
    let c' := d - e * f'
    if fitsS w e ∧ fitsS w (e * f) ∧ fitsS w b' ∧ fitsS w (e * f') ∧ fitsS w c' then
      loop w f b' c' f'
    else none
termination_by b.natAbs
decreasing_by
  have h : a - a.tdiv b * b = a.tmod b := by
    have := Int.tmod_add_tdiv_mul a b; linarith
  simp only [h]
  have h3 : (a.tmod b).natAbs = a.natAbs % b.natAbs := by simp [Int.natAbs_tmod]
  have := Nat.mod_lt a.natAbs (Int.natAbs_pos.mpr _hb); omega

/-- `mod_p_inverse_{8,16,32}`, tools.h lines 42-70, 72-101, 103-132, with locals of `w` bits and
an unsigned return type of `out` bits.  `b += (b >> (w-1)) & p` adds `p` exactly when `b < 0`
(arithmetic shift of a negative number gives all ones); the same for `d`. The C `%` truncates
towards zero (`Int.tmod`). -/
def modInv (w out : Nat) (val p : Int) : Option Int :=
  let b0 := val.tmod p
  let b1 := if b0 < 0 then b0 + p else b0
  match loop w p b1 1 0 with
  | none => none
  | some d => let d1 := if d < 0 then d + p else d
              some (d1 % 2 ^ out)

/-- tools.h 42-70 -/
def modInv8 := modInv 16 8
/-- tools.h 72-101 -/
def modInv16 := modInv 32 16
/-- tools.h 103-132 -/
def modInv32 := modInv 64 32

/-- Loop invariant: cofactor congruences and the determinant identity with alternating signs. -/
structure Inv (v p a b c d : Int) : Prop where
  hb : 0 ≤ b
  hab : b < a
  hap : a ≤ p
  hgcd : Int.gcd a b = 1
  hd : d * v ≡ a [ZMOD p]
  hc : c * v ≡ b [ZMOD p]
  hdet : (0 ≤ c ∧ d ≤ 0 ∧ c * a - d * b = p) ∨ (c ≤ 0 ∧ 0 ≤ d ∧ d * b - c * a = p)
  hbig : d = 0 ∨ 2 * |d| ≤ p

theorem loop_spec (w : Nat) (v p : Int) (hp : p < 2 ^ (w - 1)) :
    ∀ (n : Nat) (a b c d : Int), b.natAbs = n → Inv v p a b c d →
      ∃ r, loop w a b c d = some r ∧ r * v ≡ 1 [ZMOD p] ∧ (r = 0 ∨ 2 * |r| ≤ p) := by
  intro n
  induction n using Nat.strong_induction_on with
  | _ n ih =>
  intro a b c d hn hI
  obtain ⟨hb, hab, hap, hg, hd, hc, hdet, hbig⟩ := hI
  unfold loop
  by_cases h0 : b = 0
  · subst h0
    simp only [dite_true]
    refine ⟨d, rfl, ?_, hbig⟩
    have : a = 1 := by
      have : a.natAbs = 1 := by simpa using hg
      omega
    rwa [this] at hd
  · simp only [h0, dite_false]
    have hbpos : 0 < b := by omega
    have hapos : 0 < a := by omega
    have hdiv : a.tdiv b = a / b := Int.tdiv_eq_ediv_of_nonneg (by omega)
    set e := a.tdiv b with he
    have he1 : 1 ≤ e := by
      rw [hdiv]; exact (Int.le_ediv_iff_mul_le hbpos).mpr (by omega)
    have hmod : a - e * b = a % b := by
      have := Int.emod_add_mul_ediv a b; rw [hdiv]; linarith
    have hr0 : 0 ≤ a - e * b := by rw [hmod]; exact Int.emod_nonneg _ h0
    have hr1 : a - e * b < b := by rw [hmod]; exact Int.emod_lt_of_pos _ hbpos
    have hebp : e * b ≤ p := by omega
    have hele : e ≤ e * b := by nlinarith
    have hI' : Inv v p b (a - e * b) (d - e * c) c := by
      refine ⟨hr0, hr1, by omega, ?_, hc, ?_, ?_, ?_⟩
      · rw [hmod]
        rw [Int.gcd_comm] at hg
        rw [← hg]
        have := Int.gcd_emod a b
        simpa [Int.gcd_comm] using this
      · have : (d - e * c) * v = d * v - e * (c * v) := by ring
        rw [this]
        exact hd.sub (hc.mul_left e)
      · rcases hdet with ⟨h1, h2, h3⟩ | ⟨h1, h2, h3⟩
        · right
          refine ⟨?_, h1, ?_⟩
          · nlinarith
          · rw [← h3]; ring
        · left
          refine ⟨?_, h1, ?_⟩
          · nlinarith
          · rw [← h3]; ring
      · right
        have ha2 : 2 ≤ a := by omega
        rcases hdet with ⟨h1, h2, h3⟩ | ⟨h1, h2, h3⟩
        · rw [abs_of_nonneg h1]; nlinarith
        · rw [abs_of_nonpos h1]; nlinarith
    have habs : |d - e * c| ≤ p := by
      obtain ⟨-, -, -, -, -, -, hdet', -⟩ := hI'
      rcases hdet' with ⟨h1, h2, h3⟩ | ⟨h1, h2, h3⟩
      · rw [abs_of_nonneg h1]; nlinarith
      · rw [abs_of_nonpos h1]; nlinarith
    have hcabs : |c| * b ≤ p := by
      obtain ⟨-, -, -, -, -, -, hdet', -⟩ := hI'
      rcases hdet with ⟨h1, h2, h3⟩ | ⟨h1, h2, h3⟩
      · rw [abs_of_nonneg h1]; nlinarith
      · rw [abs_of_nonpos h1]; nlinarith
    have hec : |e * c| ≤ p := by
      rcases hdet with ⟨h1, h2, h3⟩ | ⟨h1, h2, h3⟩
      · have : 0 ≤ e * c := by nlinarith
        rw [abs_of_nonneg this]
        nlinarith
      · have : e * c ≤ 0 := by nlinarith
        rw [abs_of_nonpos this]
        nlinarith
    have hfit : fitsS w e ∧ fitsS w (e * b) ∧ fitsS w (a - e * b) ∧ fitsS w (e * c) ∧
        fitsS w (d - e * c) := by
      have h1 := abs_le.mp hec
      have h2 := abs_le.mp habs
      unfold fitsS
      refine ⟨⟨?_, ?_⟩, ⟨?_, ?_⟩, ⟨?_, ?_⟩, ⟨?_, ?_⟩, ⟨?_, ?_⟩⟩ <;> omega
    rw [if_pos hfit]
    exact ih (a - e * b).natAbs (by omega) b (a - e * b) (d - e * c) c rfl hI'

theorem modInv_spec (w out : Nat) (val p : Int) (hp1 : 1 < p) (hpw : p < 2 ^ (w - 1))
    (hpo : p ≤ 2 ^ out) (hg : Int.gcd val p = 1) :
    ∃ r, modInv w out val p = some r ∧ 0 ≤ r ∧ r < p ∧ r * val ≡ 1 [ZMOD p] := by
  set b1 : Int := if val.tmod p < 0 then val.tmod p + p else val.tmod p with hb1
  have hlt : (val.tmod p).natAbs < p.natAbs := by
    rw [Int.natAbs_tmod]; exact Nat.mod_lt _ (by omega)
  have hb10 : 0 ≤ b1 := by rw [hb1]; split <;> omega
  have hb1p : b1 < p := by rw [hb1]; split <;> omega
  have hcong : b1 ≡ val [ZMOD p] := by
    have h1 : val.tmod p ≡ val [ZMOD p] := by
      have := Int.tmod_add_tdiv_mul val p
      refine (Int.modEq_iff_dvd).mpr ⟨val.tdiv p, ?_⟩
      linarith
    rw [hb1]
    split
    · simpa using h1
    · exact h1
  have hgb : Int.gcd p b1 = 1 := by
    have h2 : b1 % p = val % p := hcong
    have h3 : Int.gcd p b1 = Int.gcd p (b1 % p) := by
      simpa [Int.gcd_comm] using (Int.gcd_emod b1 p).symm
    have h4 : Int.gcd p val = Int.gcd p (val % p) := by
      simpa [Int.gcd_comm] using (Int.gcd_emod val p).symm
    rw [h3, h2, ← h4, Int.gcd_comm]; exact hg
  have hI : Inv val p p b1 1 0 := by
    refine ⟨hb10, hb1p, le_refl _, hgb, ?_, ?_, ?_, Or.inl rfl⟩
    · simp [Int.ModEq]
    · simpa using hcong.symm
    · left; refine ⟨by omega, by omega, by ring⟩
  obtain ⟨r, hr, hrv, hrb⟩ := loop_spec w val p hpw b1.natAbs p b1 1 0 rfl hI
  have hr0 : r ≠ 0 := by
    rintro rfl
    have : (p : Int) ∣ 1 := by simpa using (Int.modEq_iff_dvd.mp hrv)
    have := Int.le_of_dvd (by omega) this
    omega
  have hrb : 2 * |r| ≤ p := by tauto
  have hra := abs_le.mp (show |r| ≤ p / 2 by omega)
  refine ⟨if r < 0 then r + p else r, ?_, ?_, ?_, ?_⟩
  · unfold modInv
    simp only [← hb1, hr]
    congr 1
    apply Int.emod_eq_of_lt
    · split <;> omega
    · split <;> omega
  · split <;> omega
  · split <;> omega
  · split
    · have : (r + p) * val = r * val + p * val := by ring
      rw [this]
      simpa using hrv.add (show p * val ≡ 0 [ZMOD p] by simp [Int.ModEq])
    · exact hrv

end Verif.ModInverse
