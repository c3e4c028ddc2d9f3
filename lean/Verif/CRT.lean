import Mathlib.Tactic.Ring
import Mathlib.Tactic.Linarith
import Mathlib.Tactic.NormNum
import Mathlib.Data.Int.ModEq
import Mathlib.Data.Int.GCD
import Mathlib.RingTheory.Coprime.Lemmas
import Mathlib.Algebra.BigOperators.Group.List.Basic

/-! Model of `src/crt/mpz_CRT_ui.c`. -/

namespace Verif.CRT

/-- `_mpz_CRT_ui_precomp`, mpz_CRT_ui.c 29-60.  GMP integers are `Int`; `n_submod` and
`n_mulmod2_preinv` (FLINT, external) are taken to compute `(a - b) mod m` and `a*b mod m`. -/
def crtPrecomp (r1 m1 r2 m2 m1m2 c : Int) (sign : Bool) : Int :=
  let tmp := if r1 < 0 then r1 + m1 else r1
  let r1mod := tmp % m2
  let s := (r2 - r1mod) % m2
  let s := s * c % m2
  let tmp := tmp + m1 * s
  if sign then
    let out := tmp - m1m2
    if |tmp| ≤ |out| then tmp else out
  else tmp

/-- `mpz_CRT_ui`, mpz_CRT_ui.c 69-87.  `n_invmod` (FLINT, external) is the parameter `inv`; the
branch `c == 0` terminates the program and is `none`. -/
def crt (inv : Int → Int → Int) (r1 m1 r2 m2 m1m2 : Int) (sign : Bool) : Option Int :=
  let c := inv (m1 % m2) m2
  if c = 0 then none else some (crtPrecomp r1 m1 r2 m2 m1m2 c sign)

/-- What is assumed of FLINT's `n_invmod`. -/
def InvSpec (inv : Int → Int → Int) : Prop :=
  ∀ a m : Int, 1 < m → 0 ≤ a → a < m → Int.gcd a m = 1 → inv a m * a ≡ 1 [ZMOD m]

/-- A sequence of updates as done prime after prime (msolve.c 981, lifting.c 412, lifting-gb.c 826:
`mpz_CRT_ui(x, x, modulus, r_p, p, modulus*p, …)`, then `modulus *= p`). State: (x, modulus). -/
def crtRun (inv : Int → Int → Int) (sign : Bool) : Int × Int → List (Int × Int) → Option (Int × Int)
  | s, [] => some s
  | s, rp :: l =>
    match crt inv s.1 s.2 rp.1 rp.2 (s.2 * rp.2) sign with
    | none => none
    | some x => crtRun inv sign (x, s.2 * rp.2) l

theorem crt_spec (inv : Int → Int → Int) (hinv : InvSpec inv) (r1 m1 r2 m2 : Int) (sign : Bool)
    (hm1 : 0 < m1) (hm2 : 1 < m2) (hco : Int.gcd m1 m2 = 1)
    (hr1 : -m1 ≤ r1) (hr1' : r1 < m1) :
    ∃ x, crt inv r1 m1 r2 m2 (m1 * m2) sign = some x ∧
      x ≡ r1 [ZMOD m1] ∧ x ≡ r2 [ZMOD m2] ∧
      (sign = false → 0 ≤ x ∧ x < m1 * m2) ∧
      (sign = true → -(m1 * m2) < 2 * x ∧ 2 * x ≤ m1 * m2) := by
  have hg : Int.gcd (m1 % m2) m2 = 1 := by rw [Int.gcd_emod, hco]
  have hc := hinv (m1 % m2) m2 hm2 (Int.emod_nonneg _ (by omega)) (Int.emod_lt_of_pos _ (by omega)) hg
  unfold crt
  simp only
  generalize inv (m1 % m2) m2 = c at *
  have hc0 : c ≠ 0 := by
    rintro rfl
    rw [zero_mul] at hc
    have : m2 ∣ 1 - 0 := (Int.modEq_iff_dvd).mp hc
    have := Int.le_of_dvd (by norm_num) this
    omega
  rw [if_neg hc0]
  refine ⟨_, rfl, ?_⟩
  unfold crtPrecomp
  simp only
  set t := if r1 < 0 then r1 + m1 else r1 with ht
  have ht0 : 0 ≤ t ∧ t < m1 ∧ t ≡ r1 [ZMOD m1] := by
    rw [ht]
    split_ifs with h
    · exact ⟨by omega, by omega, by simp [Int.ModEq]⟩
    · exact ⟨by omega, by omega, rfl⟩
  set s := (r2 - t % m2) % m2 * c % m2 with hs
  have hs0 : 0 ≤ s := Int.emod_nonneg _ (by omega)
  have hs1 : s < m2 := Int.emod_lt_of_pos _ (by omega)
  have hsc : s ≡ (r2 - t) * c [ZMOD m2] := by
    refine (Int.mod_modEq _ _).trans ?_
    exact Int.ModEq.mul_right c ((Int.mod_modEq _ _).trans (Int.ModEq.sub_left r2 (Int.mod_modEq _ _)))
  set y := t + m1 * s with hy
  have hy0 : 0 ≤ y := by have := mul_nonneg hm1.le hs0; omega
  have hy1 : y < m1 * m2 := by
    have : m1 * s ≤ m1 * (m2 - 1) := mul_le_mul_of_nonneg_left (by omega) hm1.le
    have h2 : m1 * (m2 - 1) = m1 * m2 - m1 := by ring
    omega
  have c1 : y ≡ r1 [ZMOD m1] := by
    have : y ≡ t [ZMOD m1] := by
      rw [hy]; exact (Int.modEq_iff_dvd).mpr ⟨-s, by ring⟩
    exact this.trans ht0.2.2
  have c2 : y ≡ r2 [ZMOD m2] := by
    have h1 : m1 * s ≡ m1 * ((r2 - t) * c) [ZMOD m2] := hsc.mul_left m1
    have h2 : m1 * ((r2 - t) * c) ≡ (r2 - t) * 1 [ZMOD m2] := by
      have : m1 * ((r2 - t) * c) = (r2 - t) * (c * m1) := by ring
      rw [this]
      refine Int.ModEq.mul_left _ (Int.ModEq.trans ?_ hc)
      exact Int.ModEq.mul_left _ (Int.mod_modEq _ _).symm
    have h3 := (Int.ModEq.refl (n := m2) t).add (h1.trans h2)
    have : t + (r2 - t) * 1 = r2 := by ring
    rw [this] at h3
    exact h3
  have d1 : y - m1 * m2 ≡ r1 [ZMOD m1] := by
    refine Int.ModEq.trans ?_ c1
    exact (Int.modEq_iff_dvd).mpr ⟨m2, by ring⟩
  have d2 : y - m1 * m2 ≡ r2 [ZMOD m2] := by
    refine Int.ModEq.trans ?_ c2
    exact (Int.modEq_iff_dvd).mpr ⟨m1, by ring⟩
  clear_value y
  generalize m1 * m2 = P at *
  cases sign with
  | false => simpa using ⟨c1, c2, hy0, hy1⟩
  | true =>
    simp only [if_true]
    rw [abs_of_nonneg hy0, abs_of_neg (show y - P < 0 by omega)]
    split_ifs with h
    · exact ⟨c1, c2, by simp, fun _ => ⟨by omega, by omega⟩⟩
    · exact ⟨d1, d2, by simp, fun _ => ⟨by omega, by omega⟩⟩

/-- The invariant of a sequence of updates. -/
theorem crtRun_spec (inv : Int → Int → Int) (hinv : InvSpec inv) (sign : Bool) :
    ∀ (l : List (Int × Int)) (x m : Int),
      0 < m → -m ≤ x → x < m →
      (∀ rp ∈ l, 1 < rp.2 ∧ 0 ≤ rp.1 ∧ rp.1 < rp.2) →
      (∀ rp ∈ l, Int.gcd m rp.2 = 1) →
      l.Pairwise (fun a b => Int.gcd a.2 b.2 = 1) →
      (sign = false → 0 ≤ x) → (sign = true → -m < 2 * x ∧ 2 * x ≤ m) →
      ∃ y, crtRun inv sign (x, m) l = some (y, m * (l.map Prod.snd).prod) ∧
        y ≡ x [ZMOD m] ∧ (∀ rp ∈ l, y ≡ rp.1 [ZMOD rp.2]) ∧
        (sign = false → 0 ≤ y ∧ y < m * (l.map Prod.snd).prod) ∧
        (sign = true → -(m * (l.map Prod.snd).prod) < 2 * y ∧
          2 * y ≤ m * (l.map Prod.snd).prod) := by
  intro l
  induction l with
  | nil =>
    intro x m hm hx hx' _ _ _ hs0 hs1
    exact ⟨x, by simp [crtRun], rfl, by simp, by simpa using fun h => ⟨hs0 h, hx'⟩, by simpa using hs1⟩
  | cons rp l ih =>
    intro x m hm hx hx' hl hco hpw hs0 hs1
    obtain ⟨h1, h2, h3⟩ := hl rp List.mem_cons_self
    obtain ⟨z, hz, z1, z2, z3, z4⟩ := crt_spec inv hinv x m rp.1 rp.2 sign hm h1
      (hco rp List.mem_cons_self) hx hx'
    have hmp : 0 < m * rp.2 := mul_pos hm (by omega)
    have hzr : -(m * rp.2) ≤ z ∧ z < m * rp.2 := by
      cases sign with
      | false => have := z3 rfl; omega
      | true => have := z4 rfl; omega
    rw [List.pairwise_cons] at hpw
    obtain ⟨y, y0, y1, y2, y3, y4⟩ := ih z (m * rp.2) hmp hzr.1 hzr.2
      (fun r hr => hl r (List.mem_cons_of_mem _ hr))
      (fun r hr => by
        have a1 := hco r (List.mem_cons_of_mem _ hr)
        have a2 := hpw.1 r hr
        rw [← Int.isCoprime_iff_gcd_eq_one] at a1 a2 ⊢
        exact IsCoprime.mul_left a1 a2)
      hpw.2 (fun h => (z3 h).1) z4
    refine ⟨y, ?_, ?_, ?_, ?_, ?_⟩
    · simp only [crtRun, hz, y0, List.map_cons, List.prod_cons, mul_assoc]
    · exact (y1.of_mul_right _).trans z1
    · intro r hr
      rcases List.mem_cons.mp hr with rfl | hr
      · exact (y1.of_mul_left _).trans z2
      · exact y2 r hr
    · simpa [mul_assoc] using y3
    · simpa [mul_assoc] using y4

end Verif.CRT
