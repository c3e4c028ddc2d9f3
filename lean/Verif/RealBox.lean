import Verif.RealIv

/-!
Tables of powers, scalar product and division: enclosures.
-/
namespace Verif.RealPoints
open Verif.UPoly Verif.UEval Verif.UIsolate Verif.Isolate Verif.URefine Verif.Spec
open Polynomial

/-! ### Powers -/

theorem table_eq (r : ℤ) (i : ℕ) :
    table r i = if 0 ≤ r ∨ i % 2 = 1 then (r ^ i, (r + 1) ^ i) else ((r + 1) ^ i, r ^ i) := by
  induction i with
  | zero => simp [table]
  | succ i ih =>
    rw [table, ih]
    by_cases hr : 0 ≤ r
    · simp only [if_pos hr, if_pos (Or.inl hr), pow_succ]
    · simp only [hr, false_or, if_false]
      by_cases hi : i % 2 = 1
      · have hi' : ¬ (i + 1) % 2 = 1 := by omega
        simp only [if_pos hi, if_neg hi', pow_succ]
      · have hi' : (i + 1) % 2 = 1 := by omega
        simp only [if_neg hi, if_pos hi', pow_succ]

theorem pow_mono_even {a b : ℝ} {i : ℕ} (hi : i % 2 = 0) (h : a ≤ b) (hb : b ≤ 0) : b ^ i ≤ a ^ i := by
  have he : Even i := Nat.even_iff.mpr hi
  rw [← he.neg_pow b, ← he.neg_pow a]
  exact pow_le_pow_left₀ (by linarith) (by linarith) i

theorem table_encl {r : ℤ} {X : ℝ} (h1 : (r : ℝ) ≤ X) (h2 : X ≤ r + 1) (i : ℕ) :
    ((table r i).1 : ℝ) ≤ X ^ i ∧ X ^ i ≤ (table r i).2 := by
  rw [table_eq]
  by_cases hr : 0 ≤ r
  · have hr' : (0 : ℝ) ≤ r := by exact_mod_cast hr
    rw [if_pos (Or.inl hr)]
    push_cast
    exact ⟨pow_le_pow_left₀ hr' h1 i, pow_le_pow_left₀ (by linarith) h2 i⟩
  · have hr' : (r : ℝ) + 1 ≤ 0 := by exact_mod_cast (by omega : r + 1 ≤ 0)
    by_cases hi : i % 2 = 1
    · have ho : Odd i := Nat.odd_iff.mpr hi
      rw [if_pos (Or.inr hi)]
      push_cast
      exact ⟨ho.strictMono_pow.monotone h1, ho.strictMono_pow.monotone h2⟩
    · rw [if_neg (by tauto)]
      push_cast
      exact ⟨pow_mono_even (by omega) h2 hr', pow_mono_even (by omega) h1 (by linarith)⟩

/-- The table is the range of the powers over the interval. -/
theorem table_minmax (r : ℤ) (i : ℕ) : table r i = (min (r ^ i) ((r + 1) ^ i), max (r ^ i) ((r + 1) ^ i)) := by
  have h1 := table_encl (r := r) (X := r) le_rfl (by linarith) i
  have h2 := table_encl (r := r) (X := r + 1) (by linarith) le_rfl i
  have h1' : (table r i).1 ≤ r ^ i ∧ r ^ i ≤ (table r i).2 := by exact_mod_cast h1
  have h2' : (table r i).1 ≤ (r + 1) ^ i ∧ (r + 1) ^ i ≤ (table r i).2 := by exact_mod_cast h2
  have he := table_eq r i
  split at he
  · rw [he] at h1' h2' ⊢
    simp only at h1' h2'
    rw [min_eq_left h2'.1, max_eq_right h1'.2]
  · rw [he] at h1' h2' ⊢
    simp only at h1' h2'
    rw [min_eq_right h1'.1, max_eq_left h2'.2]

/-- The entries are the ends of the range of the powers, rounded. -/
theorem tableFull_eq (r : ℤ) (k corr i : ℕ) :
    tableFull r k corr i = (⌊(2 : ℝ) ^ corr * min (((r : ℝ) / 2 ^ k) ^ i) ((((r : ℝ) + 1) / 2 ^ k) ^ i)⌋,
      ⌈(2 : ℝ) ^ corr * max (((r : ℝ) / 2 ^ k) ^ i) ((((r : ℝ) + 1) / 2 ^ k) ^ i)⌉) := by
  unfold tableFull
  have h2 : (2 : ℤ) ^ (k * i) ≠ 0 := by positivity
  have hp : (0 : ℝ) ≤ 2 ^ (k * i) := by positivity
  rw [fdiv_eq_floor _ h2, cdivq_eq_ceil _ h2, table_minmax, div_pow, div_pow, ← pow_mul, min_div_div_right hp,
    max_div_div_right hp]
  push_cast
  congr 2 <;> ring

theorem tableFull_encl {r : ℤ} {k corr : ℕ} {x : ℝ} (h1 : (r : ℝ) ≤ 2 ^ k * x) (h2 : 2 ^ k * x ≤ r + 1) (i : ℕ) :
    ((tableFull r k corr i).1 : ℝ) ≤ 2 ^ corr * x ^ i ∧ 2 ^ corr * x ^ i ≤ (tableFull r k corr i).2 := by
  obtain ⟨e1, e2⟩ := table_encl h1 h2 i
  have hp : (0 : ℝ) < 2 ^ (k * i) := by positivity
  have hz : (2 : ℤ) ^ (k * i) ≠ 0 := by positivity
  have hx : (2 : ℝ) ^ corr * x ^ i = (2 ^ k * x) ^ i * 2 ^ corr / 2 ^ (k * i) := by
    rw [mul_pow, ← pow_mul]; field_simp
  unfold tableFull
  rw [fdiv_eq_floor _ hz, cdivq_eq_ceil _ hz, hx]
  push_cast
  constructor
  · refine (Int.floor_le _).trans ?_
    gcongr
  · refine le_trans ?_ (Int.le_ceil _)
    gcongr

/-! ### Scalar product -/

theorem lval_succ (c : ℕ → ℤ) (deg : ℕ) (x : ℝ) : lval c (deg + 1) x = aeval x (toPoly c deg) := by
  rw [lval, aeval_toPoly]

theorem scalarFold (c : ℕ → ℤ) (t : ℕ → ℤ × ℤ) (ht : ∀ i, (t i).1 ≤ (t i).2) (n : ℕ) :
    (List.range n).foldl (scalarStep c t) (0, 0) =
      (∑ i ∈ Finset.range n, min (c i * (t i).1) (c i * (t i).2), ∑ i ∈ Finset.range n, max (c i * (t i).1) (c i * (t i).2)) := by
  induction n with
  | zero => rfl
  | succ n ih =>
    rw [List.range_succ, List.foldl_append, ih, Finset.sum_range_succ, Finset.sum_range_succ]
    simp only [List.foldl_cons, List.foldl_nil]
    unfold scalarStep
    have := ht n
    split
    · rename_i h
      have h' : c n * (t n).1 ≤ c n * (t n).2 := by nlinarith
      simp only [min_eq_left h', max_eq_right h']
    · rename_i h
      have h' : c n * (t n).2 ≤ c n * (t n).1 := by nlinarith
      simp only [min_eq_right h', max_eq_left h']

theorem scalarProd_eq (c : ℕ → ℤ) (len : ℕ) (t : ℕ → ℤ × ℤ) (corr : ℕ) (ht : ∀ i, (t i).1 ≤ (t i).2)
    (h0 : t 0 = (2 ^ corr, 2 ^ corr)) :
    scalarProd c len t corr =
      (∑ i ∈ Finset.range len, min (c i * (t i).1) (c i * (t i).2), ∑ i ∈ Finset.range len, max (c i * (t i).1) (c i * (t i).2)) := by
  match len with
  | 0 => rfl
  | 1 => simp [scalarProd, h0]
  | deg + 2 => exact scalarFold c t ht (deg + 2)

theorem tableFull_zero (r : ℤ) (k corr : ℕ) : tableFull r k corr 0 = (2 ^ corr, 2 ^ corr) := by
  simp [tableFull, table, cdivq]

theorem tableFull_le (r : ℤ) (k corr i : ℕ) : (tableFull r k corr i).1 ≤ (tableFull r k corr i).2 := by
  have := tableFull_encl (r := r) (k := k) (corr := corr) (x := r / 2 ^ k) (by field_simp; exact le_rfl)
    (by field_simp; linarith) i
  exact_mod_cast this.1.trans this.2

theorem scalarProd_encl {r : ℤ} {k : ℕ} {x : ℝ} (h1 : (r : ℝ) ≤ 2 ^ k * x) (h2 : 2 ^ k * x ≤ r + 1) (c : ℕ → ℤ)
    (len corr : ℕ) :
    ((scalarProd c len (tableFull r k corr) corr).1 : ℝ) ≤ 2 ^ corr * lval c len x ∧
      2 ^ corr * lval c len x ≤ (scalarProd c len (tableFull r k corr) corr).2 := by
  rw [scalarProd_eq c len _ corr (tableFull_le r k corr) (tableFull_zero r k corr)]
  simp only
  push_cast
  rw [lval, Finset.mul_sum]
  have key : ∀ i, (min ((c i : ℝ) * (tableFull r k corr i).1) ((c i : ℝ) * (tableFull r k corr i).2)) ≤ 2 ^ corr * (c i * x ^ i) ∧
      2 ^ corr * (c i * x ^ i) ≤ max ((c i : ℝ) * (tableFull r k corr i).1) ((c i : ℝ) * (tableFull r k corr i).2) := by
    intro i
    obtain ⟨e1, e2⟩ := tableFull_encl (corr := corr) h1 h2 i
    rw [show (2 : ℝ) ^ corr * (c i * x ^ i) = c i * (2 ^ corr * x ^ i) by ring]
    rcases le_total 0 (c i : ℝ) with hc | hc
    · exact ⟨(min_le_left _ _).trans (mul_le_mul_of_nonneg_left e1 hc), (mul_le_mul_of_nonneg_left e2 hc).trans (le_max_right _ _)⟩
    · exact ⟨(min_le_right _ _).trans (mul_le_mul_of_nonpos_left e2 hc), (mul_le_mul_of_nonpos_left e1 hc).trans (le_max_left _ _)⟩
  exact ⟨Finset.sum_le_sum fun i _ => (key i).1, Finset.sum_le_sum fun i _ => (key i).2⟩

/-! ### Division -/

/-- The least and the greatest quotient of the ends of two intervals. -/
noncomputable def quoMin (vd vu dd du : ℝ) : ℝ := min (min (vd / dd) (vd / du)) (min (vu / dd) (vu / du))
noncomputable def quoMax (vd vu dd du : ℝ) : ℝ := max (max (vd / dd) (vd / du)) (max (vu / dd) (vu / du))

theorem corner {a b c d x y : ℝ} (h1 : a ≤ x) (h2 : x ≤ b) (h3 : c ≤ y) (h4 : y ≤ d) :
    min (min (a * d) (a * c)) (min (b * d) (b * c)) ≤ x * y ∧ x * y ≤ max (max (a * d) (a * c)) (max (b * d) (b * c)) := by
  have hA : ∀ e : ℝ, min (e * d) (e * c) ≤ e * y ∧ e * y ≤ max (e * d) (e * c) := by
    intro e
    rcases le_total 0 e with he | he
    · exact ⟨(min_le_right _ _).trans (mul_le_mul_of_nonneg_left h3 he), (mul_le_mul_of_nonneg_left h4 he).trans (le_max_left _ _)⟩
    · exact ⟨(min_le_left _ _).trans (mul_le_mul_of_nonpos_left h4 he), (mul_le_mul_of_nonpos_left h3 he).trans (le_max_right _ _)⟩
  rcases le_total 0 y with hy | hy
  · exact ⟨(min_le_left _ _).trans ((hA a).1.trans (mul_le_mul_of_nonneg_right h1 hy)),
      (mul_le_mul_of_nonneg_right h2 hy).trans ((hA b).2.trans (le_max_right _ _))⟩
  · exact ⟨(min_le_right _ _).trans ((hA b).1.trans (mul_le_mul_of_nonpos_right h2 hy)),
      (mul_le_mul_of_nonpos_right h1 hy).trans ((hA a).2.trans (le_max_left _ _))⟩

theorem quo_encl {vd vu dd du V D : ℝ} (h1 : vd ≤ V) (h2 : V ≤ vu) (h3 : dd ≤ D) (h4 : D ≤ du) (hs : 0 < dd ∨ du < 0) :
    quoMin vd vu dd du ≤ V / D ∧ V / D ≤ quoMax vd vu dd du := by
  have hinv : du⁻¹ ≤ D⁻¹ ∧ D⁻¹ ≤ dd⁻¹ := by
    rcases hs with h | h
    · exact ⟨inv_anti₀ (by linarith) h4, inv_anti₀ h h3⟩
    · exact ⟨(inv_le_inv_of_neg h (by linarith)).mpr h4, (inv_le_inv_of_neg (by linarith) (by linarith)).mpr h3⟩
  have := corner h1 h2 hinv.1 hinv.2
  simpa only [quoMin, quoMax, div_eq_mul_inv] using this

theorem boxDiv_eq (old : ℤ × ℤ) {vd vu dd du cf : ℤ} (hv : vd ≤ vu) (hd : dd ≤ du) (hs : 0 < dd ∨ du < 0) (hc : 0 < cf) :
    boxDiv old vd vu dd du cf =
      (⌊quoMin vd vu ((dd * cf : ℤ) : ℝ) ((du * cf : ℤ) : ℝ)⌋, ⌈quoMax vd vu ((dd * cf : ℤ) : ℝ) ((du * cf : ℤ) : ℝ)⌉) := by
  have hz1 : dd * cf ≠ 0 := mul_ne_zero (by omega) (by omega)
  have hz2 : du * cf ≠ 0 := mul_ne_zero (by omega) (by omega)
  have hv' : (vd : ℝ) ≤ vu := by exact_mod_cast hv
  have hpq : ∃ p q : ℝ, p = ((du * cf : ℤ) : ℝ)⁻¹ ∧ q = ((dd * cf : ℤ) : ℝ)⁻¹ ∧ p ≤ q ∧ (0 < dd → 0 < p) ∧ (du < 0 → q < 0) := by
    refine ⟨_, _, rfl, rfl, ?_, ?_, ?_⟩
    · have hle : ((dd * cf : ℤ) : ℝ) ≤ ((du * cf : ℤ) : ℝ) := by exact_mod_cast mul_le_mul_of_nonneg_right hd hc.le
      rcases hs with h | h
      · exact inv_anti₀ (by exact_mod_cast mul_pos h hc) hle
      · have h1 : ((du * cf : ℤ) : ℝ) < 0 := by exact_mod_cast mul_neg_of_neg_of_pos h hc
        exact (inv_le_inv_of_neg h1 (by linarith)).mpr hle
    · intro h; exact inv_pos.mpr (by exact_mod_cast mul_pos (by omega : 0 < du) hc)
    · intro h; exact inv_lt_zero.mpr (by exact_mod_cast mul_neg_of_neg_of_pos (by omega : dd < 0) hc)
  obtain ⟨p, q, hp, hq, hle, hpos, hneg⟩ := hpq
  have hmin : ∀ e : ℝ, (e = vd * p ∨ e = vd * q ∨ e = vu * p ∨ e = vu * q) → e ≤ vd * p → e ≤ vd * q → e ≤ vu * p → e ≤ vu * q →
      quoMin vd vu ((dd * cf : ℤ) : ℝ) ((du * cf : ℤ) : ℝ) = e := by
    intro e he h1 h2 h3 h4
    simp only [quoMin, div_eq_mul_inv, ← hp, ← hq]
    refine le_antisymm ?_ (le_min (le_min h2 h1) (le_min h4 h3))
    rcases he with rfl | rfl | rfl | rfl <;> simp
  have hmax : ∀ e : ℝ, (e = vd * p ∨ e = vd * q ∨ e = vu * p ∨ e = vu * q) → vd * p ≤ e → vd * q ≤ e → vu * p ≤ e → vu * q ≤ e →
      quoMax vd vu ((dd * cf : ℤ) : ℝ) ((du * cf : ℤ) : ℝ) = e := by
    intro e he h1 h2 h3 h4
    simp only [quoMax, div_eq_mul_inv, ← hp, ← hq]
    refine le_antisymm (max_le (max_le h2 h1) (max_le h4 h3)) ?_
    rcases he with rfl | rfl | rfl | rfl <;> simp
  have F : ∀ a b : ℤ, b ≠ 0 → a.fdiv b = ⌊(a : ℝ) * (b : ℝ)⁻¹⌋ := fun a b hb => by rw [fdiv_eq_floor a hb, div_eq_mul_inv]
  have G : ∀ a b : ℤ, b ≠ 0 → cdivq a b = ⌈(a : ℝ) * (b : ℝ)⁻¹⌉ := fun a b hb => by rw [cdivq_eq_ceil a hb, div_eq_mul_inv]
  unfold boxDiv
  simp only [F _ _ hz1, F _ _ hz2, G _ _ hz1, G _ _ hz2, ← hp, ← hq]
  have finish : ∀ e f : ℝ, (e = vd * p ∨ e = vd * q ∨ e = vu * p ∨ e = vu * q) ∧ e ≤ vd * p ∧ e ≤ vd * q ∧ e ≤ vu * p ∧ e ≤ vu * q →
      (f = vd * p ∨ f = vd * q ∨ f = vu * p ∨ f = vu * q) ∧ vd * p ≤ f ∧ vd * q ≤ f ∧ vu * p ≤ f ∧ vu * q ≤ f →
      ((⌊e⌋, ⌈f⌉) : ℤ × ℤ) = (⌊quoMin vd vu ((dd * cf : ℤ) : ℝ) ((du * cf : ℤ) : ℝ)⌋, ⌈quoMax vd vu ((dd * cf : ℤ) : ℝ) ((du * cf : ℤ) : ℝ)⌉) := by
    rintro e f ⟨h0, h1, h2, h3, h4⟩ ⟨g0, g1, g2, g3, g4⟩
    rw [hmin e h0 h1 h2 h3 h4, hmax f g0 g1 g2 g3 g4]
  rcases hs with h | h
  · rw [if_pos ⟨by omega, by omega⟩]
    have hp0 := hpos h
    by_cases c3 : vd ≤ 0 ∧ vu ≤ 0
    · rw [if_pos c3]
      have k1 : (vd : ℝ) ≤ 0 := by exact_mod_cast c3.1
      have k2 : (vu : ℝ) ≤ 0 := by exact_mod_cast c3.2
      exact finish _ _ ⟨by tauto, by nlinarith, by nlinarith, by nlinarith, by nlinarith⟩ ⟨by tauto, by nlinarith, by nlinarith, by nlinarith, by nlinarith⟩
    · rw [if_neg c3]
      by_cases c2 : vd ≤ 0 ∧ 0 ≤ vu
      · rw [if_pos c2]
        have k1 : (vd : ℝ) ≤ 0 := by exact_mod_cast c2.1
        have k2 : (0 : ℝ) ≤ vu := by exact_mod_cast c2.2
        exact finish _ _ ⟨by tauto, by nlinarith, by nlinarith, by nlinarith, by nlinarith⟩ ⟨by tauto, by nlinarith, by nlinarith, by nlinarith, by nlinarith⟩
      · rw [if_neg c2, if_pos ⟨by omega, by omega⟩]
        have k1 : (0 : ℝ) ≤ vd := by exact_mod_cast (by omega : 0 ≤ vd)
        exact finish _ _ ⟨by tauto, by nlinarith, by nlinarith, by nlinarith, by nlinarith⟩ ⟨by tauto, by nlinarith, by nlinarith, by nlinarith, by nlinarith⟩
  · rw [if_neg (by omega)]
    have hq0 := hneg h
    by_cases c3 : vd ≤ 0 ∧ vu ≤ 0
    · rw [if_pos c3]
      have k1 : (vd : ℝ) ≤ 0 := by exact_mod_cast c3.1
      have k2 : (vu : ℝ) ≤ 0 := by exact_mod_cast c3.2
      exact finish _ _ ⟨by tauto, by nlinarith, by nlinarith, by nlinarith, by nlinarith⟩ ⟨by tauto, by nlinarith, by nlinarith, by nlinarith, by nlinarith⟩
    · rw [if_neg c3]
      by_cases c2 : vd ≤ 0 ∧ 0 ≤ vu
      · rw [if_pos c2]
        have k1 : (vd : ℝ) ≤ 0 := by exact_mod_cast c2.1
        have k2 : (0 : ℝ) ≤ vu := by exact_mod_cast c2.2
        exact finish _ _ ⟨by tauto, by nlinarith, by nlinarith, by nlinarith, by nlinarith⟩ ⟨by tauto, by nlinarith, by nlinarith, by nlinarith, by nlinarith⟩
      · rw [if_neg c2, if_pos ⟨by omega, by omega⟩]
        have k1 : (0 : ℝ) ≤ vd := by exact_mod_cast (by omega : 0 ≤ vd)
        exact finish _ _ ⟨by tauto, by nlinarith, by nlinarith, by nlinarith, by nlinarith⟩ ⟨by tauto, by nlinarith, by nlinarith, by nlinarith, by nlinarith⟩

end Verif.RealPoints
