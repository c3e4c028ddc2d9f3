import Verif.Lift
import Verif.Props.Arith
import Mathlib.FieldTheory.Separable

/-!
C40, C55, C56: modular images of a parametrization, the check of a lifted one, the multi-modular loop.
-/
namespace Verif.Props
open Polynomial Verif.Lift Verif.RealPoints

/-! ### C40 -/

/-- C40: the check of the eliminating polynomial against a monic image succeeds exactly when the leading coefficient is
invertible and all coefficients agree after division by it; it never fails to compute. -/
theorem C40_elim {p : ℕ} [Fact p.Prime] (hlt : p < 2 ^ 32) (n : ℕ) (f : ℕ → ℤ) (g : (ZMod p)[X]) (hg : g.coeff n = 1) :
    checkUnit (n + 1) f (fun i => (g.coeff i).val) p = some 0 ↔
      (f n : ZMod p) ≠ 0 ∧ ∀ i ≤ n, (f i : ZMod p) = f n * g.coeff i := checkUnit_zero hlt n f (fun i => g.coeff i) hg

/-- C40: otherwise it returns one more than the first index with a difference. -/
theorem C40_elim_index {p : ℕ} [Fact p.Prime] (hlt : p < 2 ^ 32) (n : ℕ) (f : ℕ → ℤ) (g : (ZMod p)[X]) :
    ∃ c, checkUnit n f (fun i => (g.coeff i).val) p = some c ∧
      (c ≠ 0 → c - 1 < n ∧ (f (c - 1) : ZMod p) * (f (n - 1) : ZMod p)⁻¹ ≠ g.coeff (c - 1) ∧
        ∀ i < c - 1, (f i : ZMod p) * (f (n - 1) : ZMod p)⁻¹ = g.coeff i) := by
  obtain ⟨c, h1, _, h3⟩ := checkUnit_eq hlt n f fun i => g.coeff i
  exact ⟨c, h1, h3⟩

/-- C40: the check of a lifted parametrization succeeds exactly when the eliminating polynomial and every coordinate
agree with the image, in the coefficients that the image has, provided that no denominator vanishes modulo the prime. -/
theorem C40_param_partial {p : ℕ} [Fact p.Prime] (hlt : p < 2 ^ 32) (junk : ℤ) (m : Param) (g : NParam p)
    (hg : g.elim.coeff m.nsols = 1) (hn : (m.nsols : ZMod p) ≠ 0) (hcf : ∀ q ∈ m.coords, (q.cf : ZMod p) ≠ 0) :
    checkModular junk m g = some false ↔
      (m.elim m.nsols : ZMod p) ≠ 0 ∧ (∀ i ≤ m.nsols, (m.elim i : ZMod p) = m.elim m.nsols * g.elim.coeff i) ∧
        ∀ q ∈ m.coords.zip g.coords, ∀ i < len q.2,
          (q.1.c i : ZMod p) = m.elim m.nsols * q.1.cf * m.nsols * q.2.coeff i := by
  obtain ⟨c, h1, _⟩ := checkUnit_eq hlt (m.nsols + 1) m.elim fun i => g.elim.coeff i
  have h2 := checkUnit_zero hlt m.nsols m.elim (fun i => g.elim.coeff i) hg
  unfold checkModular
  rw [h1] at h2 ⊢
  cases c with
  | zero =>
    simp only [true_iff] at h2
    simp only [Option.some.injEq, List.any_eq_false, Bool.not_eq_true]
    have key : ∀ q ∈ m.coords.zip g.coords, (checkCoord junk (len q.2) q.1.c q.1.cf (m.elim m.nsols) m.nsols
        (fun i => (q.2.coeff i).val) p = false ↔ ∀ i < len q.2, (q.1.c i : ZMod p) = m.elim m.nsols * q.1.cf * m.nsols * q.2.coeff i) := by
      intro q hq
      refine checkCoord_eq junk _ _ _ _ _ (fun i => q.2.coeff i) ?_
      push_cast
      exact mul_ne_zero (mul_ne_zero h2.1 (hcf q.1 (List.of_mem_zip (a := q.1) (b := q.2) hq).1)) hn
    constructor
    · exact fun h => ⟨h2.1, h2.2, fun q hq => (key q hq).mp (h q hq)⟩
    · exact fun h q hq => (key q hq).mpr (h.2.2 q hq)
  | succ c =>
    constructor
    · intro h; simp at h
    · intro h
      have := h2.mpr ⟨h.1, h.2.1⟩
      simp at this

/-- C40: what a successful check means for the points.  In an algebra over the prime field let the image of the
parametrization (normalised, with the derivative of the eliminating polynomial over the number of solutions as
denominator) hold at `x`.  Then the lifted parametrization holds at `x` too: its eliminating polynomial vanishes, and each
coordinate `y` satisfies `cf * elim'(x) * y + c(x) = 0`, if the coefficients of `c` that the image does not have are
divisible by the prime. -/
theorem C40_points_partial {p : ℕ} [Fact p.Prime] (hlt : p < 2 ^ 32) (junk : ℤ) (m : Param) (g : NParam p)
    (hg : g.elim.Monic) (hd : g.elim.natDegree = m.nsols) (hn : (m.nsols : ZMod p) ≠ 0)
    (hcf : ∀ q ∈ m.coords, (q.cf : ZMod p) ≠ 0) (h : checkModular junk m g = some false)
    {A : Type*} [CommRing A] [Algebra (ZMod p) A] {x : A} (hx : aeval x g.elim = 0) :
    ∑ i ∈ Finset.range (m.nsols + 1), (m.elim i : A) * x ^ i = 0 ∧
      ∀ q ∈ m.coords.zip g.coords, (∀ i, len q.2 ≤ i → i < q.1.len → (p : ℤ) ∣ q.1.c i) → len q.2 ≤ q.1.len →
        ∀ y : A, aeval x (C ((m.nsols : ZMod p)⁻¹) * g.elim.derivative) * y + aeval x q.2 = 0 →
          (q.1.cf : A) * (∑ i ∈ Finset.range m.nsols, (m.elim (i + 1) * (i + 1) : A) * x ^ i) * y +
            ∑ i ∈ Finset.range q.1.len, (q.1.c i : A) * x ^ i = 0 := by
  have hg' : g.elim.coeff m.nsols = 1 := by rw [← hd]; exact hg
  obtain ⟨h1, h2, h3⟩ := (C40_param_partial hlt junk m g hg' hn hcf).mp h
  have cast : ∀ z : ℤ, (z : A) = algebraMap (ZMod p) A (z : ZMod p) := fun z => by simp
  have hE : ∑ i ∈ Finset.range (m.nsols + 1), (m.elim i : A) * x ^ i = algebraMap _ A (m.elim m.nsols : ZMod p) * aeval x g.elim := by
    rw [aeval_eq_sum_range, hd, Finset.mul_sum]
    refine Finset.sum_congr rfl fun i hi => ?_
    rw [cast, h2 i (by have := Finset.mem_range.mp hi; omega), map_mul, Algebra.smul_def]
    ring
  have hD : ∑ i ∈ Finset.range m.nsols, (m.elim (i + 1) * (i + 1) : A) * x ^ i =
      algebraMap _ A (m.elim m.nsols : ZMod p) * aeval x g.elim.derivative := by
    have hdd : g.elim.derivative.natDegree < m.nsols := by
      rw [← hd]; exact natDegree_derivative_lt (by
        intro h0
        apply hn
        rw [← hd, h0]; simp)
    rw [aeval_eq_sum_range' hdd, Finset.mul_sum]
    refine Finset.sum_congr rfl fun i hi => ?_
    rw [cast, h2 (i + 1) (by have := Finset.mem_range.mp hi; omega), map_mul, Algebra.smul_def, coeff_derivative, map_mul]
    simp only [map_add, map_natCast, map_one]
    ring
  refine ⟨by rw [hE, hx, mul_zero], fun q hq hhigh hle y hy => ?_⟩
  have hC : ∑ i ∈ Finset.range q.1.len, (q.1.c i : A) * x ^ i =
      algebraMap _ A (m.elim m.nsols * q.1.cf * m.nsols : ZMod p) * aeval x q.2 := by
    have hq2 : aeval x q.2 = ∑ i ∈ Finset.range q.1.len, q.2.coeff i • x ^ i := by
      by_cases h0 : q.2 = 0
      · rw [h0]; simp
      · exact aeval_eq_sum_range' (by rw [len_eq h0] at hle; omega) x
    rw [hq2, Finset.mul_sum]
    refine Finset.sum_congr rfl fun i hi => ?_
    by_cases hil : i < len q.2
    · rw [cast, h3 q hq i hil, map_mul, Algebra.smul_def]; ring
    · have h0 : (q.1.c i : ZMod p) = 0 := (ZMod.intCast_zmod_eq_zero_iff_dvd _ _).mpr (hhigh i (by omega) (Finset.mem_range.mp hi))
      rw [cast, h0, coeff_len (by omega : len q.2 ≤ i)]
      simp
  rw [hD, hC, cast q.1.cf]
  have hinv : algebraMap (ZMod p) A (m.nsols : ZMod p) * algebraMap (ZMod p) A ((m.nsols : ZMod p)⁻¹) = 1 := by
    rw [← map_mul, mul_inv_cancel₀ hn, map_one]
  rw [map_mul, aeval_C] at hy
  simp only [map_mul]
  linear_combination (algebraMap (ZMod p) A (m.elim m.nsols : ZMod p) * algebraMap (ZMod p) A (q.1.cf : ZMod p) *
    algebraMap (ZMod p) A (m.nsols : ZMod p)) * hy - (algebraMap (ZMod p) A (m.elim m.nsols : ZMod p) *
    algebraMap (ZMod p) A (q.1.cf : ZMod p) * aeval x g.elim.derivative * y) * hinv

private instance : Fact (Nat.Prime 7) := ⟨by norm_num⟩

/-- `3x^2 - 1`, with a coordinate `6 + 5x`. -/
private def chkP : Param := ⟨fun i => if i = 0 then -1 else if i = 2 then 3 else 0, 2, fun _ => 0, 2,
  [⟨fun i => if i = 0 then 6 else if i = 1 then 5 else 0, 2, 1⟩]⟩

/-- The image modulo `7` with the constant coordinate `1`. -/
private noncomputable def chkG : NParam 7 := ⟨X ^ 2 + C 2, 0, [C 1]⟩

private theorem chk_len : len (C 1 : (ZMod 7)[X]) = 1 := by
  rw [len_eq (by rw [C_1]; exact one_ne_zero)]; simp

/-- C40: a successful check does not mean that the lifted parametrization reduces to the image: coefficients of a lifted
coordinate beyond the length of the image are not looked at.  The coordinate `6 + 5x` over the eliminating polynomial
`3x^2 - 1` passes the check against the constant `1` modulo `7`. -/
theorem C40_high_coefficients_unchecked (junk : ℤ) : checkModular junk chkP chkG = some false ∧
    ∃ q ∈ chkP.coords.zip chkG.coords, ¬ ∀ i < q.1.len, (q.1.c i : ZMod 7) =
      chkP.elim chkP.nsols * q.1.cf * chkP.nsols * q.2.coeff i := by
  constructor
  · refine (C40_param_partial (by norm_num) junk chkP chkG (by simp [chkG, chkP]) (by decide) (by simp [chkP])).mpr
      ⟨by decide, fun i hi => ?_, fun q hq i hi => ?_⟩
    · simp only [chkP] at hi
      interval_cases i <;> simp [chkP, chkG, coeff_C, coeff_X_pow] <;> decide
    · simp only [chkP, chkG, List.zip_cons_cons, List.zip_nil_right, List.mem_cons, List.not_mem_nil, or_false] at hq
      subst hq
      simp only [chk_len] at hi
      interval_cases i
      simp [chkP]
      decide
  · refine ⟨(_, _), List.mem_cons_self, fun h => ?_⟩
    have := h 1 (by simp)
    simp [chkP, coeff_one] at this
    exact absurd this (by decide)

/-- C40: when the denominator of a coordinate vanishes modulo the prime the verdict depends on what GMP leaves in a
variable: the check may succeed although no image exists. -/
theorem C40_vanishing_denominator : ∃ junk f, checkCoord junk 1 f 7 1 1 (fun _ => 1) 7 = false ∧
    checkCoord (junk + 1) 1 f 7 1 1 (fun _ => 1) 7 = true := ⟨1, fun _ => 1, by decide +kernel, by decide +kernel⟩

/-! ### C55 -/

/-- C55: the denominator of a normalised image is the derivative of the eliminating polynomial divided by the number of
solutions, and the coordinates are the former ones times the denominator, modulo the eliminating polynomial. -/
theorem C55_normalize {p : ℕ} [Fact p.Prime] (hlt : p < 2 ^ 32) (m : NParam p) (hlen : len m.elim < 2 ^ 32) :
    (normalize p m).elim = m.elim ∧
      (normalize p m).denom = C (((m.elim.natDegree : ℕ) : ZMod p)⁻¹) * m.elim.derivative ∧
      (normalize p m).coords = m.coords.map fun c => c * (normalize p m).denom % m.elim :=
  ⟨rfl, normalize_denom hlt m hlen, rfl⟩

/-- C55: normalisation keeps the points: a coordinate `y` given by `y + c(x) = 0` satisfies afterwards
`denom(x) * y + c'(x) = 0`, and if the eliminating polynomial is separable and the prime does not divide its degree,
`denom(x)` is invertible, so that `y` is determined. -/
theorem C55_points {p : ℕ} [Fact p.Prime] (hlt : p < 2 ^ 32) (m : NParam p) (hlen : len m.elim < 2 ^ 32)
    {A : Type*} [CommRing A] [Algebra (ZMod p) A] {x : A} (hx : aeval x m.elim = 0) :
    (∀ c ∈ m.coords.zip (normalize p m).coords, ∀ y : A, y + aeval x c.1 = 0 →
      aeval x (normalize p m).denom * y + aeval x c.2 = 0) ∧
      (m.elim.Separable → ((m.elim.natDegree : ℕ) : ZMod p) ≠ 0 → IsUnit (aeval x (normalize p m).denom)) := by
  constructor
  · intro c hc y hy
    have hz : c ∈ m.coords.zip (m.coords.map fun c => c * (normalize p m).denom % m.elim) := hc
    rw [List.zip_map_right, List.mem_map] at hz
    obtain ⟨⟨a, b⟩, hab, rfl⟩ := hz
    have hab' : a = b := by
      obtain ⟨i, hi, h⟩ := List.getElem_of_mem hab
      simp only [List.getElem_zip, Prod.mk.injEq] at h
      rw [← h.1, ← h.2]
    subst hab'
    simp only [Prod.map_fst, Prod.map_snd, id_eq] at hy ⊢
    have : aeval x (a * (normalize p m).denom % m.elim) = aeval x (a * (normalize p m).denom) := by
      conv_rhs => rw [← EuclideanDomain.mod_add_div (a * (normalize p m).denom) m.elim]
      rw [map_add, map_mul, hx, zero_mul, add_zero]
    rw [this, map_mul]
    linear_combination aeval x (normalize p m).denom * hy
  · intro hsep hn
    rw [normalize_denom hlt m hlen, map_mul, aeval_C]
    refine IsUnit.mul ((isUnit_iff_ne_zero.mpr (inv_ne_zero hn)).map _) ?_
    obtain ⟨a, b, hab⟩ := hsep
    have := congrArg (aeval x) hab
    rw [map_add, map_mul, map_mul, hx, mul_zero, zero_add, map_one] at this
    exact IsUnit.of_mul_eq_one_right _ this

example : len (X ^ 2 + C 2 : (ZMod 7)[X]) < 2 ^ 32 ∧ (X ^ 2 + C 2 : (ZMod 7)[X]).natDegree = 2 := by
  have h2 : (X ^ 2 + C 2 : (ZMod 7)[X]).natDegree = 2 := natDegree_X_pow_add_C
  have h0 : (X ^ 2 + C 2 : (ZMod 7)[X]) ≠ 0 := fun h => by rw [h] at h2; simp at h2
  rw [len_eq h0, h2]
  norm_num

/-! ### C56 -/

/-- C56: the multi-modular loop returns a parametrization only after the check against an image succeeded, and nothing
has changed since; the prime of this image was not used for the reconstruction when the primes are pairwise
different.  This holds whatever the reconstruction computes. -/
theorem C56_confirmed {M I : Type*} (chk : M → I → Bool) (clear : M → I → M) (recon : Bool → M → I → Bool × M) (m0 : M)
    (primeinit : ℕ) (rounds : List (Bool × List (ℕ × Option I))) (s : St M)
    (h : lift chk clear recon (start m0 primeinit) rounds = .done s) :
    ∃ q g, (q, some g) ∈ rounds.flatMap Prod.snd ∧ chk s.m g = false ∧
      ((primeinit :: (rounds.flatMap Prod.snd).map Prod.fst).Nodup → q ∉ s.used) := by
  obtain ⟨n, h1, _, h3⟩ := lift_inv rounds (start_inv chk m0 primeinit) h
  rw [List.nil_append] at h1
  obtain ⟨pre, q, g, post, h4, _, h6, h7⟩ := h1.ok h3
  have hsub : ((rounds.take n).flatMap Prod.snd).Sublist (rounds.flatMap Prod.snd) := by
    conv_rhs => rw [← List.take_append_drop n rounds, List.flatMap_append]
    exact List.sublist_append_left _ _
  refine ⟨q, g, hsub.subset (by rw [h4]; simp), h6, fun hnd hq => ?_⟩
  have hnd' : (primeinit :: (pre ++ (q, some g) :: post).map Prod.fst).Nodup := by
    rw [← h4]
    exact hnd.sublist ((hsub.map _).cons_cons _)
  simp only [List.map_append, List.map_cons, List.nodup_cons, List.mem_append, List.mem_cons, not_or] at hnd'
  rcases h7 q hq with rfl | ⟨g', hg'⟩
  · exact hnd'.1.2.1 rfl
  · rw [List.nodup_append] at hnd'
    exact hnd'.2.2.2 q (List.mem_map_of_mem (f := Prod.fst) hg') q List.mem_cons_self rfl

/-- The loop ends: the reconstruction from the first prime succeeds, the second prime confirms it. -/
example : lift (M := ℕ) (I := ℕ) (fun m g => decide (m ≠ g)) (fun m _ => m) (fun _ _ g => (true, g)) (start 0 2)
    [(true, [(3, some 5)]), (true, [(7, none), (11, some 5)])] = .done ⟨false, false, 3, 1, 5, [3, 2]⟩ := rfl

end Verif.Props
