import Mathlib.Tactic.Ring
import Mathlib.Tactic.Linarith
import Mathlib.Tactic.NormNum
import Mathlib.Data.Nat.Prime.Basic
import Mathlib.NumberTheory.Bertrand

/-! Model of `src/msolve/primes.c`. -/

namespace Verif.Primes

/-- `primes_table`, primes.c 20. -/
def table : List Nat := [2, 3, 4, 5, 7, 11, 13, 17, 19, 23]

/-- The trial division loop of `is_prime`, primes.c 27-30: `for(uint32_t i = 5; i*i <= n; i += 6)`,
the product computed modulo `2^32`.  If the counter itself were to wrap around, the outcome is
`none`. -/
def loop (n i : Nat) : Option Bool :=
  if i * i % 2 ^ 32 ≤ n then
    if n % i = 0 then some false
    else if n % (i + 2) = 0 then some false
    else if i + 6 < 2 ^ 32 then loop n (i + 6) else none
  else some true
termination_by 2 ^ 32 - i

/-- `is_prime`, primes.c 21-32. -/
def isPrime (n : Nat) : Option Bool :=
  if table.any (fun t => n % t = 0) then some false else loop n 5

/-- The search of `next_prime`, primes.c 35-39 (`while(!is_prime(cand)) cand++`); `none` when the
32 bit candidate would wrap around. -/
def search (cand : Nat) : Option Nat :=
  match isPrime cand with
  | none => none
  | some true => some cand
  | some false => if cand + 1 < 2 ^ 32 then search (cand + 1) else none
termination_by 2 ^ 32 - cand

def nextPrime (n : Nat) : Option Nat := search (n + 1)

theorem loop_spec (n i : Nat) (hn : n < 65531 * 65531) (hi : i % 6 = 5) (hi2 : i ≤ 65531) (hin : 1 < n) :
    ∃ b, loop n i = some b ∧
      (b = true ↔ ∀ k, i ≤ 6 * k + 5 → (6 * k + 5) * (6 * k + 5) ≤ n →
        ¬ (6 * k + 5 ∣ n) ∧ ¬ (6 * k + 7 ∣ n)) := by
  fun_induction loop n i with
  | case1 i h1 h2 =>
    refine ⟨false, rfl, ?_⟩
    have hsq : i * i < 2 ^ 32 := lt_of_le_of_lt (Nat.mul_le_mul hi2 hi2) (by norm_num)
    rw [Nat.mod_eq_of_lt hsq] at h1
    simp only [Bool.false_eq_true, false_iff]
    intro h
    have e : 6 * (i / 6) + 5 = i := by omega
    have := (h (i / 6) (by omega) (by rw [e]; exact h1)).1
    rw [e] at this
    exact this (Nat.dvd_of_mod_eq_zero h2)
  | case2 i h1 h2 h3 =>
    refine ⟨false, rfl, ?_⟩
    have hsq : i * i < 2 ^ 32 := lt_of_le_of_lt (Nat.mul_le_mul hi2 hi2) (by norm_num)
    rw [Nat.mod_eq_of_lt hsq] at h1
    simp only [Bool.false_eq_true, false_iff]
    intro h
    have e : 6 * (i / 6) + 5 = i := by omega
    have := (h (i / 6) (by omega) (by rw [e]; exact h1)).2
    have e2 : 6 * (i / 6) + 7 = i + 2 := by omega
    rw [e2] at this
    exact this (Nat.dvd_of_mod_eq_zero h3)
  | case3 i h1 h2 h3 h4 ih =>
    have hsq : i * i < 2 ^ 32 := lt_of_le_of_lt (Nat.mul_le_mul hi2 hi2) (by norm_num)
    rw [Nat.mod_eq_of_lt hsq] at h1
    have hlt : i < 65531 := by
      by_contra hc
      have := Nat.mul_le_mul (not_lt.mp hc) (not_lt.mp hc)
      omega
    obtain ⟨b, hb, hb2⟩ := ih (by omega) (by omega)
    refine ⟨b, hb, hb2.trans ⟨?_, ?_⟩⟩
    · intro h k hk hkk
      rcases Nat.lt_or_ge (6 * k + 5) (i + 6) with hl | hl
      · have e : 6 * k + 5 = i := by omega
        have e2 : 6 * k + 7 = i + 2 := by omega
        rw [e, e2]
        exact ⟨fun h => h2 (Nat.mod_eq_zero_of_dvd h), fun h => h3 (Nat.mod_eq_zero_of_dvd h)⟩
      · exact h k hl hkk
    · intro h k hk hkk
      exact h k (by omega) hkk
  | case4 i h1 h2 h3 h4 => omega
  | case5 i h1 =>
    refine ⟨true, rfl, ?_⟩
    have hsq : i * i < 2 ^ 32 := lt_of_le_of_lt (Nat.mul_le_mul hi2 hi2) (by norm_num)
    rw [Nat.mod_eq_of_lt hsq] at h1
    simp only [true_iff]
    intro k hk hkk
    have := Nat.mul_le_mul hk hk
    omega

theorem isPrime_spec (n : Nat) (h24 : 24 ≤ n) (hn : n < 65531 * 65531) :
    ∃ b, isPrime n = some b ∧ (b = true ↔ Nat.Prime n) := by
  unfold isPrime
  by_cases ht : table.any (fun t => n % t = 0)
  · rw [if_pos ht]
    refine ⟨false, rfl, ?_⟩
    simp only [Bool.false_eq_true, false_iff]
    intro hp
    rw [List.any_eq_true] at ht
    obtain ⟨t, ht1, ht2⟩ := ht
    have hdvd : t ∣ n := Nat.dvd_of_mod_eq_zero (by simpa using ht2)
    have hb : 2 ≤ t ∧ t ≤ 23 := by
      simp only [table, List.mem_cons, List.not_mem_nil, or_false] at ht1
      omega
    rcases (Nat.dvd_prime hp).mp hdvd with e | e <;> omega
  · rw [if_neg ht]
    have htab : ∀ t ∈ table, ¬ t ∣ n := by
      intro t h1 h2
      apply ht
      rw [List.any_eq_true]
      exact ⟨t, h1, by simpa using Nat.mod_eq_zero_of_dvd h2⟩
    obtain ⟨b, hb, hb2⟩ := loop_spec n 5 hn (by norm_num) (by norm_num) (by omega)
    refine ⟨b, hb, hb2.trans ⟨?_, ?_⟩⟩
    · intro h
      by_contra hp
      obtain ⟨q, hq, hqn, hqq⟩ : ∃ q, Nat.Prime q ∧ q ∣ n ∧ q * q ≤ n :=
        ⟨Nat.minFac n, Nat.minFac_prime (by omega), Nat.minFac_dvd n, by
          have := Nat.minFac_sq_le_self (show 0 < n by omega) hp
          rwa [pow_two] at this⟩
      have h2 : q % 2 ≠ 0 := by
        intro h
        have : 2 ∣ n := (Nat.dvd_of_mod_eq_zero h).trans hqn
        exact htab 2 (by simp [table]) this
      have h3 : q % 3 ≠ 0 := by
        intro h
        have : 3 ∣ n := (Nat.dvd_of_mod_eq_zero h).trans hqn
        exact htab 3 (by simp [table]) this
      have hq2 := hq.two_le
      have hcase : q % 6 = 5 ∨ q % 6 = 1 := by omega
      rcases hcase with hc | hc
      · have e : 6 * (q / 6) + 5 = q := by omega
        have := (h (q / 6) (by omega) (by rw [e]; exact hqq)).1
        rw [e] at this
        exact this hqn
      · have e : 6 * (q / 6 - 1) + 7 = q := by omega
        have hle : 6 * (q / 6 - 1) + 5 ≤ q := by omega
        have := (h (q / 6 - 1) (by omega) ((Nat.mul_le_mul hle hle).trans hqq)).2
        rw [e] at this
        exact this hqn
    · intro hp k hk hkk
      have hlt : 6 * k + 7 < n := by nlinarith
      constructor
      · intro hd
        rcases (Nat.dvd_prime hp).mp hd with e | e <;> omega
      · intro hd
        rcases (Nat.dvd_prime hp).mp hd with e | e <;> omega

/-- Acceptance by the loop rules out all the candidate divisors up to 65533, even in the range where
`i * i` wraps around. -/
theorem loop_sound (n i : Nat) (hi : i % 6 = 5) (h : loop n i = some true) :
    ∀ k, i ≤ 6 * k + 5 → 6 * k + 5 ≤ 65531 → (6 * k + 5) * (6 * k + 5) ≤ n →
        ¬ (6 * k + 5 ∣ n) ∧ ¬ (6 * k + 7 ∣ n) := by
  fun_induction loop n i with
  | case1 => simp at h
  | case2 => simp at h
  | case3 i h1 h2 h3 h4 ih =>
    intro k hk hk2 hkk
    rcases Nat.lt_or_ge (6 * k + 5) (i + 6) with hl | hl
    · have e : 6 * k + 5 = i := by omega
      have e2 : 6 * k + 7 = i + 2 := by omega
      rw [e, e2]
      exact ⟨fun h => h2 (Nat.mod_eq_zero_of_dvd h), fun h => h3 (Nat.mod_eq_zero_of_dvd h)⟩
    · exact ih (by omega) h k hl hk2 hkk
  | case4 => simp at h
  | case5 i h1 =>
    intro k hk hk2 hkk
    have h2 : i * i ≤ 65531 * 65531 := Nat.mul_le_mul (by omega) (by omega)
    have h3 := Nat.mul_le_mul hk hk
    rw [Nat.mod_eq_of_lt (by omega)] at h1
    omega

theorem isPrime_sound (n : Nat) (hn : n < 2 ^ 32) (h1 : n ≠ 1) (h : isPrime n = some true) :
    Nat.Prime n := by
  unfold isPrime at h
  by_cases ht : table.any (fun t => n % t = 0)
  · rw [if_pos ht] at h; simp at h
  rw [if_neg ht] at h
  have htab : ∀ t ∈ table, ¬ t ∣ n := by
    intro t h1 h2
    apply ht
    rw [List.any_eq_true]
    exact ⟨t, h1, by simpa using Nat.mod_eq_zero_of_dvd h2⟩
  have hn0 : n ≠ 0 := by
    rintro rfl
    exact htab 2 (by simp [table]) (dvd_zero _)
  have hl := loop_sound n 5 (by norm_num) h
  by_contra hp
  obtain ⟨q, hq, hqn, hqq⟩ : ∃ q, Nat.Prime q ∧ q ∣ n ∧ q * q ≤ n :=
    ⟨Nat.minFac n, Nat.minFac_prime h1, Nat.minFac_dvd n, by
      have := Nat.minFac_sq_le_self (show 0 < n by omega) hp
      rwa [pow_two] at this⟩
  have h2 : q % 2 ≠ 0 := by
    intro h
    have : 2 ∣ n := (Nat.dvd_of_mod_eq_zero h).trans hqn
    exact htab 2 (by simp [table]) this
  have h3 : q % 3 ≠ 0 := by
    intro h
    have : 3 ∣ n := (Nat.dvd_of_mod_eq_zero h).trans hqn
    exact htab 3 (by simp [table]) this
  have hq2 := hq.two_le
  have hqb : q < 65536 := by
    by_contra hc
    have := Nat.mul_le_mul (not_lt.mp hc) (not_lt.mp hc)
    omega
  have hcase : q % 6 = 5 ∨ q % 6 = 1 := by omega
  rcases hcase with hc | hc
  · have e : 6 * (q / 6) + 5 = q := by omega
    have := (hl (q / 6) (by omega) (by omega) (by rw [e]; exact hqq)).1
    rw [e] at this
    exact this hqn
  · have e : 6 * (q / 6 - 1) + 7 = q := by omega
    have hle : 6 * (q / 6 - 1) + 5 ≤ q := by omega
    have := (hl (q / 6 - 1) (by omega) (by omega) ((Nat.mul_le_mul hle hle).trans hqq)).2
    rw [e] at this
    exact this hqn

theorem search_spec (c p : Nat) (hc : 24 ≤ c) (hcp : c ≤ p) (hp : Nat.Prime p)
    (hmin : ∀ q, c ≤ q → q < p → ¬ Nat.Prime q) (hpb : p < 65531 * 65531) :
    search c = some p := by
  induction h : p - c generalizing c with
  | zero =>
    have : c = p := by omega
    subst this
    obtain ⟨b, hb, hb2⟩ := isPrime_spec c hc hpb
    have : b = true := hb2.mpr hp
    subst this
    unfold search
    rw [hb]
  | succ k ih =>
    obtain ⟨b, hb, hb2⟩ := isPrime_spec c hc (by omega)
    have : b = false := by
      cases b with
      | false => rfl
      | true => exact absurd (hb2.mp rfl) (hmin c (le_refl _) (by omega))
    subst this
    unfold search
    rw [hb]
    simp only
    rw [if_pos (by omega)]
    exact ih (c + 1) (by omega) (by omega) (fun q h1 h2 => hmin q (by omega) h2) (by omega)

/-- For `2^32 - 5` the test `i*i <= n` never fails (odd squares are 1 modulo 8), so the loop runs until `i = n`. -/
theorem loop_large (i : Nat) (hi : i % 6 = 5) (hin : i ≤ 4294967291) : loop 4294967291 i = some false := by
  generalize hn : 4294967291 = n at hin ⊢
  fun_induction loop n i with
  | case1 => rfl
  | case2 => rfl
  | case3 i h1 h2 h3 h4 ih =>
    have hne : i ≠ n := by
      rintro rfl
      exact h2 (Nat.mod_self i)
    exact ih (by omega) (by omega)
  | case4 i h1 h2 h3 h4 =>
    have hne : i ≠ n := by
      rintro rfl
      exact h2 (Nat.mod_self i)
    omega
  | case5 i h1 =>
    exfalso
    apply h1
    have h8 : i * i % 8 = 1 := by
      have : i % 8 = 1 ∨ i % 8 = 3 ∨ i % 8 = 5 ∨ i % 8 = 7 := by omega
      rw [Nat.mul_mod]
      rcases this with h | h | h | h <;> rw [h]
    have h9 : i * i % 2 ^ 32 % 8 = 1 := by
      rw [Nat.mod_mod_of_dvd _ (by norm_num : 8 ∣ 2 ^ 32)]
      exact h8
    have h10 := Nat.mod_lt (i * i) (by norm_num : 0 < 2 ^ 32)
    omega

end Verif.Primes
