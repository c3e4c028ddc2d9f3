import Mathlib.Tactic.Ring
import Mathlib.Tactic.Linarith
import Mathlib.Tactic.NormNum
import Mathlib.Data.Int.ModEq
import Mathlib.Data.Int.GCD
import Mathlib.RingTheory.Coprime.Lemmas
import Mathlib.Algebra.Order.Ring.Abs
import Mathlib.Data.Nat.Sqrt

/-! Model of the rational reconstruction functions of `src/crt/mpq_reconstruct.c`. -/

namespace Verif.RatRecon

/-- The half extended Euclidean loop shared by `ratrecon` (mpq_reconstruct.c 276-289),
`ratreconwden` (213-226) and `_mpq_reconstruct_mpz_2` (80-85).  The last one compares `|n|`, which
agrees because all remainders are non negative.  A division by zero (GMP aborts) is `none`. -/
def loop (N r0 t0 r1 t1 : Int) : Option (Int × Int) :=
  if r1 > N then
    if r1 ≤ 0 then none
    else
      loop N r1 t1 (r0 - r0 / r1 * r1) (t0 - r0 / r1 * t1)
  else some (r1, t1)
termination_by r1.toNat
decreasing_by
  have h5 : r0 % r1 < r1 := Int.emod_lt_of_pos _ (by omega)
  have := Int.mul_ediv_add_emod r0 r1
  have : r0 / r1 * r1 = r1 * (r0 / r1) := mul_comm _ _
  omega

/-- `u += mod` while `u < 0` (mpq_reconstruct.c 266-268). For `mod ≤ 0` the loop does not end; the
model then returns `none`. -/
def makeNonneg (u m : Int) : Option Int :=
  if u < 0 then (if m ≤ 0 then none else makeNonneg (u + m) m) else some u
termination_by (-u).toNat
decreasing_by omega

/-- The end of `ratrecon`/`ratreconwden` (290-301, 227-238): returns the pair written to `n`, `d`
and the success flag. -/
def finish (D : Int) (nd : Int × Int) : (Int × Int) × Bool :=
  let n := if nd.2 < 0 then -nd.1 else nd.1
  let d := if nd.2 < 0 then -nd.2 else nd.2
  ((n, d), decide (d ≤ D ∧ Int.gcd n d = 1))

/-- `ratrecon`, mpq_reconstruct.c 262-303. -/
def ratrecon (u m N D : Int) : Option ((Int × Int) × Bool) :=
  (makeNonneg u m).bind fun u => (loop N m 0 u 1).map (finish D)

/-- `ratreconwden`, mpq_reconstruct.c 195-240: `mpz_mod` is the non negative remainder. -/
def ratreconwden (u m gden N D : Int) : Option ((Int × Int) × Bool) :=
  if m = 0 then none else
  (loop N m 0 (u % m * gden % m) 1).map (finish D)

/-- `_mpq_reconstruct_mpz_2`, mpq_reconstruct.c 35-109. -/
def reconstruct2 (a m N D : Int) : Option ((Int × Int) × Bool) :=
  if a ≤ N then some ((a, 1), true)
  else if |a - m| ≤ N then some ((a - m, 1), true)
  else (loop N m 0 a 1).map (finish D)

/-- `mpq_reconstruct_mpz`, mpq_reconstruct.c 121-133 and 152-167: bounds `N = D = floor(sqrt(m/2))`. -/
def reconstruct (a m : Int) : Option ((Int × Int) × Bool) :=
  (makeNonneg a m).bind fun a =>
    let N : Int := (Nat.sqrt (m / 2).toNat : Nat)
    reconstruct2 a m N N

theorem makeNonneg_spec (u m : Int) (hm : 0 < m) :
    ∃ v, makeNonneg u m = some v ∧ 0 ≤ v ∧ v ≡ u [ZMOD m] ∧ (0 ≤ u → v = u) ∧ (u < 0 → v < m) := by
  fun_induction makeNonneg u m with
  | case1 => omega
  | case2 u h1 h2 ih =>
    obtain ⟨v, a, b, c, d, e⟩ := ih
    refine ⟨v, a, b, c.trans (by simp [Int.ModEq]), by omega, fun _ => ?_⟩
    by_cases h : u + m < 0
    · exact e h
    · have := d (by omega); omega
  | case3 u h => exact ⟨u, rfl, by omega, rfl, fun _ => rfl, fun h' => by omega⟩

/-- Loop invariant. -/
structure Inv (m u r0 t0 r1 t1 : Int) : Prop where
  r1nn : 0 ≤ r1
  r0pos : 0 < r0
  det : r0 * t1 - r1 * t0 = m ∨ r0 * t1 - r1 * t0 = -m
  sgn : t0 ≤ 0 ∧ 0 ≤ t1 ∨ 0 ≤ t0 ∧ t1 ≤ 0
  c0 : m ∣ t0 * u - r0
  c1 : m ∣ t1 * u - r1
  co : Int.gcd t0 t1 = 1

theorem Inv.init (m u : Int) (hm : 0 < m) (hu : 0 ≤ u) : Inv m u m 0 u 1 :=
  ⟨hu, hm, Or.inl (by ring), Or.inl ⟨le_refl _, by norm_num⟩, ⟨-1, by ring⟩, ⟨0, by ring⟩, by simp⟩

theorem Inv.step {m u r0 t0 r1 t1 : Int} (h : Inv m u r0 t0 r1 t1) (hr : 0 < r1) :
    Inv m u r1 t1 (r0 - r0 / r1 * r1) (t0 - r0 / r1 * t1) := by
  have hq : 0 ≤ r0 / r1 := Int.ediv_nonneg h.r0pos.le hr.le
  have hmod : r0 - r0 / r1 * r1 = r0 % r1 := by
    have := Int.mul_ediv_add_emod r0 r1; linarith [mul_comm r1 (r0 / r1)]
  refine ⟨?_, hr, ?_, ?_, h.c1, ?_, ?_⟩
  · rw [hmod]; exact Int.emod_nonneg _ hr.ne'
  · generalize r0 / r1 = q
    have : r1 * (t0 - q * t1) - (r0 - q * r1) * t1 = -(r0 * t1 - r1 * t0) := by ring
    rw [this]
    rcases h.det with e | e <;> rw [e] <;> simp
  · rcases h.sgn with ⟨a, b⟩ | ⟨a, b⟩
    · right; exact ⟨b, by nlinarith [mul_nonneg hq b]⟩
    · left; exact ⟨b, by nlinarith [mul_nonneg hq (neg_nonneg.mpr b)]⟩
  · generalize r0 / r1 = q
    have : (t0 - q * t1) * u - (r0 - q * r1) = (t0 * u - r0) - q * (t1 * u - r1) := by ring
    rw [this]
    exact dvd_sub h.c0 (Dvd.dvd.mul_left h.c1 q)
  · generalize r0 / r1 = q
    rw [← Int.isCoprime_iff_gcd_eq_one]
    have h1 := Int.isCoprime_iff_gcd_eq_one.mpr h.co
    have : IsCoprime (t0 + -q * t1) t1 := IsCoprime.add_mul_right_left h1 (-q)
    have e : t0 - q * t1 = t0 + -q * t1 := by ring
    rw [e]; exact this.symm

/-- The loop ends with the first remainder `≤ N` (for `N ≥ 0`), all invariants hold, and the
previous remainder is `> N` (or the loop did not run). -/
theorem loop_spec (N m u : Int) (hN : 0 ≤ N) :
    ∀ r0 t0 r1 t1, Inv m u r0 t0 r1 t1 →
      ∃ r0' t0' r t, loop N r0 t0 r1 t1 = some (r, t) ∧ Inv m u r0' t0' r t ∧ r ≤ N ∧
        (N < r0 → N < r0') := by
  intro r0 t0 r1 t1
  fun_induction loop N r0 t0 r1 t1 with
  | case1 r0 t0 r1 t1 h1 h2 => intros; omega
  | case2 r0 t0 r1 t1 h1 h2 ih =>
    intro h
    obtain ⟨a, b, c, d, e1, e2, e3, e4⟩ := ih (h.step (by omega))
    exact ⟨a, b, c, d, e1, e2, e3, fun _ => e4 (by omega)⟩
  | case3 r0 t0 r1 t1 h1 =>
    intro h
    exact ⟨r0, t0, r1, t1, rfl, h, by omega, fun h => h⟩

/-- Core uniqueness: a small fraction congruent to `u` is proportional to the pair found. -/
theorem unique_core {m u r0 t0 r1 t1 N D n0 d0 : Int} (hm : 0 < m) (h : Inv m u r0 t0 r1 t1)
    (h1 : r1 ≤ N) (h0 : N < r0) (hND : 2 * N * D < m)
    (hn : |n0| ≤ N) (hd0 : 0 < d0) (hd : d0 ≤ D) (hc : m ∣ d0 * u - n0) :
    ∃ β : Int, n0 = β * r1 ∧ d0 = β * t1 := by
  have hN : 0 ≤ N := le_trans (abs_nonneg _) hn
  -- the two coordinates
  obtain ⟨k0, hk0⟩ := h.c0
  obtain ⟨k1, hk1⟩ := h.c1
  obtain ⟨k, hk⟩ := hc
  have hA : n0 * t1 - d0 * r1 = m * (d0 * k1 - t1 * k) := by
    have e1 : n0 = d0 * u - m * k := by linarith
    have e2 : r1 = t1 * u - m * k1 := by linarith
    rw [e1]
    have : d0 * r1 = d0 * (t1 * u - m * k1) := by rw [← e2]
    rw [this]; ring
  have hB : d0 * r0 - n0 * t0 = m * (t0 * k - d0 * k0) := by
    have e1 : n0 = d0 * u - m * k := by linarith
    have e2 : r0 = t0 * u - m * k0 := by linarith
    rw [e1]
    have : d0 * r0 = d0 * (t0 * u - m * k0) := by rw [← e2]
    rw [this]; ring
  -- choose the sign
  obtain ⟨ε, hε, hdet⟩ : ∃ ε : Int, (ε = 1 ∨ ε = -1) ∧ r0 * t1 - r1 * t0 = ε * m := by
    rcases h.det with e | e
    · exact ⟨1, Or.inl rfl, by rw [e]; ring⟩
    · exact ⟨-1, Or.inr rfl, by rw [e]; ring⟩
  have hεε : ε * ε = 1 := by rcases hε with rfl | rfl <;> norm_num
  set α := ε * (d0 * k1 - t1 * k) with hα
  set β := ε * (t0 * k - d0 * k0) with hβ
  have hmα : m * α = ε * (n0 * t1 - d0 * r1) := by rw [hA, hα]; ring
  have hmβ : m * β = ε * (d0 * r0 - n0 * t0) := by rw [hB, hβ]; ring
  have en : n0 = α * r0 + β * r1 := by
    have : m * n0 = m * (α * r0 + β * r1) := by
      have e : m * (α * r0 + β * r1) = (m * α) * r0 + (m * β) * r1 := by ring
      rw [e, hmα, hmβ]
      have : ε * (n0 * t1 - d0 * r1) * r0 + ε * (d0 * r0 - n0 * t0) * r1
        = ε * n0 * (r0 * t1 - r1 * t0) := by ring
      rw [this, hdet]
      have : ε * n0 * (ε * m) = (ε * ε) * (m * n0) := by ring
      rw [this, hεε, one_mul]
    exact mul_left_cancel₀ hm.ne' this
  have ed : d0 = α * t0 + β * t1 := by
    have : m * d0 = m * (α * t0 + β * t1) := by
      have e : m * (α * t0 + β * t1) = (m * α) * t0 + (m * β) * t1 := by ring
      rw [e, hmα, hmβ]
      have : ε * (n0 * t1 - d0 * r1) * t0 + ε * (d0 * r0 - n0 * t0) * t1
        = ε * d0 * (r0 * t1 - r1 * t0) := by ring
      rw [this, hdet]
      have : ε * d0 * (ε * m) = (ε * ε) * (m * d0) := by ring
      rw [this, hεε, one_mul]
    exact mul_left_cancel₀ hm.ne' this
  suffices hα0 : α = 0 by
    refine ⟨β, ?_, ?_⟩
    · rw [hα0] at en; linarith
    · rw [hα0] at ed; linarith
  clear_value α β
  by_contra hne
  have hr1 := h.r1nn
  have habs := abs_le.mp hn
  -- |α| m ≤ N |t1| + D r1
  by_cases ht : |t1| ≤ D
  · have b1 : |m * α| ≤ 2 * N * D := by
      rw [hmα, abs_mul]
      have : |ε| = 1 := by rcases hε with rfl | rfl <;> norm_num
      rw [this, one_mul]
      have a1 : |n0 * t1 - d0 * r1| ≤ |n0 * t1| + |d0 * r1| := abs_sub _ _
      have a2 : |n0 * t1| ≤ N * D := by
        rw [abs_mul]; exact mul_le_mul hn ht (abs_nonneg _) hN
      have a3 : |d0 * r1| ≤ N * D := by
        rw [abs_mul, abs_of_pos hd0, abs_of_nonneg hr1, mul_comm]
        exact mul_le_mul h1 hd hd0.le hN
      linarith
    have b2 : m ≤ |m * α| := by
      rw [abs_mul, abs_of_pos hm]
      have : 1 ≤ |α| := Int.one_le_abs hne
      linarith [mul_le_mul_of_nonneg_left this hm.le]
    linarith
  · have ht : D < |t1| := not_le.mp ht
    -- sign analysis
    rcases lt_or_gt_of_ne hne with ha | ha
    · -- α < 0
      rcases le_or_gt β 0 with hb | hb
      · -- n0 ≤ -r0
        have : n0 ≤ -r0 := by
          have := mul_nonneg (neg_nonneg.mpr hb) hr1
          have h2 : r0 * 1 ≤ r0 * (-α) := mul_le_mul_of_nonneg_left (by omega) h.r0pos.le
          linarith
        linarith [habs.1]
      · rcases h.sgn with ⟨s0, s1⟩ | ⟨s0, s1⟩
        · rw [abs_of_nonneg s1] at ht
          have := mul_nonneg (neg_nonneg.mpr ha.le) (neg_nonneg.mpr s0)
          have h2 : t1 * 1 ≤ t1 * β := mul_le_mul_of_nonneg_left (by omega) s1
          linarith
        · have := mul_nonneg (neg_nonneg.mpr ha.le) s0
          have h2 := mul_nonneg hb.le (neg_nonneg.mpr s1)
          linarith
    · rcases le_or_gt 0 β with hb | hb
      · have : r0 ≤ n0 := by
          have := mul_nonneg hb hr1
          have h2 : r0 * 1 ≤ r0 * α := mul_le_mul_of_nonneg_left (by omega) h.r0pos.le
          linarith
        linarith [habs.2]
      · rcases h.sgn with ⟨s0, s1⟩ | ⟨s0, s1⟩
        · have := mul_nonneg ha.le (neg_nonneg.mpr s0)
          have h2 := mul_nonneg (neg_nonneg.mpr hb.le) s1
          linarith
        · rw [abs_of_nonpos s1] at ht
          have := mul_nonneg ha.le s0
          have h2 : (-t1) * 1 ≤ (-t1) * (-β) := mul_le_mul_of_nonneg_left (by omega) (by omega)
          linarith

/-- What the loop followed by `finish` guarantees, for a non negative `u`. -/
theorem core_spec (u m N D : Int) (hm1 : 1 < m) (hu : 0 ≤ u) (hN : 0 ≤ N) :
    ∃ res, (loop N m 0 u 1).map (finish D) = some res ∧
      (res.2 = true → m ∣ res.1.2 * u - res.1.1 ∧ |res.1.1| ≤ N ∧ 0 < res.1.2 ∧ res.1.2 ≤ D ∧
        Int.gcd res.1.1 res.1.2 = 1) ∧
      (2 * N * D < m → ∀ n0 d0, |n0| ≤ N → 0 < d0 → d0 ≤ D → Int.gcd n0 d0 = 1 →
        m ∣ d0 * u - n0 → res = ((n0, d0), true)) := by
  have hm : 0 < m := by omega
  obtain ⟨r0, t0, r, t, h1, h2, h3, h4⟩ := loop_spec N m u hN m 0 u 1 (Inv.init m u hm hu)
  rw [h1]
  refine ⟨finish D (r, t), rfl, ?_, ?_⟩
  · have hr := h2.r1nn
    intro hs
    simp only [finish, decide_eq_true_eq] at hs ⊢
    by_cases ht : t < 0
    · simp only [ht, if_true] at hs ⊢
      refine ⟨?_, ?_, by omega, hs.1, hs.2⟩
      · have : -t * u - -r = -(t * u - r) := by ring
        rw [this]; exact (Int.dvd_neg).mpr h2.c1
      · rw [abs_neg, abs_of_nonneg hr]; exact h3
    · simp only [ht, if_false] at hs ⊢
      refine ⟨h2.c1, by rw [abs_of_nonneg hr]; exact h3, ?_, hs.1, hs.2⟩
      rcases lt_or_eq_of_le (not_lt.mp ht) with h | h
      · exact h
      · exfalso
        -- t = 0: then r = gcd = 1 and r0-relation forces r = m
        subst h
        have hg : r = 1 := by
          have := hs.2
          simp at this
          omega
        have hrt : r * t0 = m ∨ r * t0 = -m := by
          rcases h2.det with e | e
          · right; linarith
          · left; linarith
        have ht0 : t0 = 1 ∨ t0 = -1 := by
          have := h2.co
          simp at this
          omega
        rw [hg] at hrt
        have : m = 1 := by omega
        omega
  · intro hND n0 d0 hn hd0 hd hg hc
    have hNm : N < m := by
      have : N * 1 ≤ N * D := mul_le_mul_of_nonneg_left (by omega) hN
      linarith
    obtain ⟨β, e1, e2⟩ := unique_core hm h2 h3 (h4 hNm) hND hn hd0 hd hc
    have hβ : β = 1 ∨ β = -1 := by
      have h5 : IsCoprime n0 d0 := Int.isCoprime_iff_gcd_eq_one.mpr hg
      have h6 : IsUnit β := h5.isUnit_of_dvd' ⟨r, e1⟩ ⟨t, e2⟩
      exact Int.isUnit_iff.mp h6
    rcases hβ with rfl | rfl
    · have e1 : r = n0 := by omega
      have e2 : t = d0 := by omega
      subst e1 e2
      simp [finish, not_lt.mpr hd0.le, hd, hg]
    · have e1 : -r = n0 := by omega
      have e2 : -t = d0 := by omega
      have ht : t < 0 := by omega
      subst e1 e2
      simp only [finish, ht, if_true, hd, hg, and_self, decide_true]

end Verif.RatRecon
