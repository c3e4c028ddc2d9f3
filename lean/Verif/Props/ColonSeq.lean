import Verif.ColonSeq
import Verif.Props.Fglm
import Mathlib.RingTheory.Polynomial.Basic

/-!
C95: the number of terms and the polynomial of `msolve -C`.
-/
namespace Verif.Props
open Polynomial Verif.Spec Verif.BM
open Verif.ColonSeq (loop run sqfColon guess oneRow)

variable {K : Type*} [Field K]

namespace ColonSeq

theorem loop_spec {ncols : ℕ} {dim : ℕ → ℕ} : ∀ (fuel i t : ℕ) (last : Option ℕ), 1 ≤ t → t ≤ ncols → min 4 ncols ≤ t →
    (i ≤ 2 * t - 1 ∨ (i = 2 * t ∧ t = ncols ∧ last = some t)) → 2 * ncols < fuel + i →
    ∃ t', loop ncols dim fuel i t last = .done (some t') ∧ min 4 ncols ≤ t' ∧ t' ≤ ncols ∧ (dim t' < t' ∨ t' = ncols) := by
  intro fuel
  induction fuel with
  | zero => intro i t last h1 h2 h3 h4 h5; omega
  | succ fuel ih =>
    intro i t last h1 h2 h3 h4 h5
    rw [loop]
    by_cases hi : i ≤ 2 * t - 1
    · rw [if_pos hi, if_neg (by omega)]
      by_cases he : i = 2 * t - 1
      · rw [if_pos he]
        by_cases hd : dim t < t
        · rw [if_pos hd]
          exact ⟨t, rfl, h3, h2, .inl hd⟩
        · rw [if_neg hd]
          refine ih _ _ _ (by omega) (by omega) (by omega) ?_ (by omega)
          by_cases ht : t = ncols
          · refine .inr ⟨by omega, by omega, ?_⟩
            congr 1
            omega
          · exact .inl (by omega)
      · rw [if_neg he]
        exact ih _ _ _ h1 h2 h3 (.inl (by omega)) (by omega)
    · rw [if_neg hi]
      obtain ⟨g1, g2, g3⟩ := h4.resolve_left hi
      exact ⟨t, by rw [g3], h3, h2, .inr g2⟩

theorem sqfColon_eq (V : K[X]) (l : List (K[X] × ℕ)) : sqfColon V l = sqfPart V V.natDegree l := by
  unfold sqfColon sqfPart
  congr! 1
  simp

theorem guess_of_min {hg : K[X] → K[X] → HM K} (hhg : HgcdOk hg) {sqf : K[X] → List (K[X] × ℕ)} {a b : ℕ → K} {t : ℕ} (hab : ∀ i < 2 * t, a i = b i)
    (hrec : ∃ f : K[X], f ≠ 0 ∧ f.natDegree ≤ t ∧ Annihilates f b) {m : K[X]} (hm : IsMinPoly m b) : guess hg sqf a t = sqfColon m (sqf m) := by
  have h := (C25_minpoly hhg b t hrec ((List.range (2 * t)).map a) (by simp) (fun i hi => by
    simp [List.getD, hi, hab i hi])).1
  unfold guess
  rw [C25_unique h hm]

theorem run_of_lt {ncols : ℕ} (h : 4 ≤ ncols) {dim : ℕ → ℕ} (hd : dim 4 < 4) : run ncols dim = .done (some 4) := by
  have step : ∀ k, k ≤ 6 → loop ncols dim (2 * ncols + 1 - k) (1 + k) 4 none = .done (some 4) := by
    intro k hk
    induction hj : 6 - k generalizing k with
    | zero =>
      obtain rfl : k = 6 := by omega
      obtain ⟨c, hc⟩ : ∃ c, 2 * ncols + 1 - 6 = c + 1 := ⟨2 * ncols - 6, by omega⟩
      rw [hc, loop, if_pos (by omega), if_neg (by omega), if_pos (by omega), if_pos hd]
    | succ j ih =>
      have := ih (k + 1) (by omega) (by omega)
      obtain ⟨c, hc⟩ : ∃ c, 2 * ncols + 1 - k = c + 1 := ⟨2 * ncols - k, by omega⟩
      rw [hc, loop, if_pos (by omega), if_neg (by omega), if_neg (by omega)]
      have e : c = 2 * ncols + 1 - (k + 1) := by omega
      rw [e]
      exact this
  have := step 0 (by omega)
  rw [run, Nat.min_eq_left h]
  exact this

/-- A sequence with one term that is not zero. -/
def delta (k i : ℕ) : K := if i = k then 1 else 0

theorem annihilates_X_pow {b : ℕ → K} {k : ℕ} : Annihilates (X ^ k : K[X]) b ↔ ∀ i, b (i + k) = 0 := by
  unfold Annihilates
  rw [natDegree_X_pow]
  refine forall_congr' fun i => ?_
  rw [Finset.sum_eq_single k]
  · simp
  · intro j _ hj
    rw [coeff_X_pow, if_neg hj, zero_mul]
  · intro h
    simp at h

/-- The minimal polynomial of a sequence whose last term that is not zero has the number `k`. -/
theorem min_of_last {b : ℕ → K} {k : ℕ} (h1 : b k ≠ 0) (h2 : ∀ i, k < i → b i = 0) : IsMinPoly (X ^ (k + 1) : K[X]) b := by
  have hann : Annihilates (X ^ (k + 1) : K[X]) b := annihilates_X_pow.mpr fun i => h2 _ (by omega)
  refine ⟨monic_X_pow _, hann, fun g hg => ?_⟩
  rw [X_pow_dvd_iff]
  by_contra hcon
  push Not at hcon
  obtain ⟨d, hd, hne⟩ := hcon
  obtain ⟨e, he, hmin⟩ : ∃ e, (e < k + 1 ∧ g.coeff e ≠ 0) ∧ ∀ e' < e, ¬ (e' < k + 1 ∧ g.coeff e' ≠ 0) := by
    classical
    exact ⟨Nat.find ⟨d, hd, hne⟩, Nat.find_spec (⟨d, hd, hne⟩ : ∃ d, d < k + 1 ∧ g.coeff d ≠ 0), fun e' h' => Nat.find_min _ h'⟩
  have hs := hg (k - e)
  rw [Finset.sum_eq_single e] at hs
  · rw [Nat.sub_add_cancel (by omega)] at hs
    exact (mul_ne_zero he.2 h1) hs
  · intro j _ hj
    rcases Nat.lt_or_ge j e with h | h
    · have := hmin j h
      have : g.coeff j = 0 := by
        by_contra hc
        exact this ⟨by omega, hc⟩
      rw [this, zero_mul]
    · rw [h2 _ (by omega), mul_zero]
  · intro h
    rw [Finset.mem_range] at h
    rw [coeff_eq_zero_of_natDegree_lt (by omega), zero_mul]

theorem min_zero : IsMinPoly (1 : K[X]) (fun _ => (0 : K)) := ⟨monic_one, fun i => by simp, fun g _ => one_dvd g⟩

end ColonSeq

open Verif.Props.ColonSeq

/-- C95: whatever the degrees of the polynomials are, the loop ends and stays inside of the arrays; the last polynomial was computed for a tentative degree `t` that is at least 4 or the number of
rows, and either is greater than the degree of the polynomial or equal to the number of rows. -/
theorem C95_loop {ncols : ℕ} (h : 1 ≤ ncols) (dim : ℕ → ℕ) : ∃ t, run ncols dim = .done (some t) ∧ min 4 ncols ≤ t ∧ t ≤ ncols ∧ (dim t < t ∨ t = ncols) :=
  loop_spec _ _ _ _ (by omega) (by omega) le_rfl (.inl (by omega)) (by omega)

/-- C95: the last polynomial is the square-free part of the minimal polynomial of the sequence, if the sequence satisfies a recurrence whose order is at most the last tentative degree.

Partial: a recurrence whose order is at most the number of rows is not enough, see `C95_early` and `C95_square`. -/
theorem C95_right_partial {hg : K[X] → K[X] → HM K} (hhg : HgcdOk hg) {sqf : K[X] → List (K[X] × ℕ)} (hsqf : ∀ V : K[X], V.Monic → SqfOk V (sqf V)) (a : ℕ → K) {ncols t : ℕ}
    (_ht : run ncols (fun t => (guess hg sqf a t).natDegree) = .done (some t)) (hrec : ∃ f : K[X], f ≠ 0 ∧ f.natDegree ≤ t ∧ Annihilates f a) :
    ∃ m, IsMinPoly m a ∧ (guess hg sqf a t).Monic ∧ Squarefree (guess hg sqf a t) ∧ guess hg sqf a t ∣ m ∧ ∃ N, m ∣ guess hg sqf a t ^ N := by
  have h := (C25_minpoly hhg a t hrec ((List.range (2 * t)).map a) (by simp) (fun i hi => by
    simp [List.getD, hi])).1
  refine ⟨_, h, ?_⟩
  rw [guess_of_min hhg (fun _ _ => rfl) hrec h, sqfColon_eq]
  exact sqfPart_spec h.1 (hsqf _ h.1) _

/-- C95: in particular if the loop does not end before the tentative degree is the number of rows, and the sequence satisfies a recurrence of at most this
order; with at most four rows this is always so. -/
theorem C95_full {hg : K[X] → K[X] → HM K} (hhg : HgcdOk hg) {sqf : K[X] → List (K[X] × ℕ)} (hsqf : ∀ V : K[X], V.Monic → SqfOk V (sqf V)) (a : ℕ → K) {ncols : ℕ} (h1 : 1 ≤ ncols)
    (hno : ∀ t, 4 ≤ t → t < ncols → t ≤ (guess hg sqf a t).natDegree) (hrec : ∃ f : K[X], f ≠ 0 ∧ f.natDegree ≤ ncols ∧ Annihilates f a) :
    ∃ t, run ncols (fun t => (guess hg sqf a t).natDegree) = .done (some t) ∧
      ∃ m, IsMinPoly m a ∧ (guess hg sqf a t).Monic ∧ Squarefree (guess hg sqf a t) ∧ guess hg sqf a t ∣ m ∧ ∃ N, m ∣ guess hg sqf a t ^ N := by
  obtain ⟨t, h2, h5, h3, h4⟩ := C95_loop h1 (fun t => (guess hg sqf a t).natDegree)
  have ht : t = ncols := by
    rcases h4 with h4 | h4
    · by_contra hc
      exact absurd (hno t (by omega) (by omega)) (not_le.mpr h4)
    · exact h4
  subst ht
  exact ⟨t, h2, C95_right_partial hhg hsqf a h2 hrec⟩

/-- C95 (finding): a sequence that starts with eight zeros ends the loop with the polynomial 1, also if its minimal polynomial is `x^9` and there are enough rows. -/
theorem C95_early {hg : K[X] → K[X] → HM K} (hhg : HgcdOk hg) {sqf : K[X] → List (K[X] × ℕ)} {ncols : ℕ} (h : 9 ≤ ncols) :
    IsMinPoly (X ^ 9 : K[X]) (delta 8) ∧ run ncols (fun t => (guess hg sqf (delta 8 : ℕ → K) t).natDegree) = .done (some 4) ∧ guess hg sqf (delta 8 : ℕ → K) 4 = 1 := by
  have hg1 : guess hg sqf (delta 8 : ℕ → K) 4 = 1 := by
    rw [guess_of_min hhg (b := fun _ => 0) (fun i hi => by simp [delta]; omega) ⟨1, one_ne_zero, by simp, min_zero.2.1⟩ min_zero]
    unfold sqfColon
    rw [if_pos squarefree_one]
  refine ⟨min_of_last (by simp [delta]) (fun i hi => by simp [delta]; omega), run_of_lt (by omega) ?_, hg1⟩
  rw [hg1]
  simp

/-- C95 (finding): the test for the end of the loop compares with the degree of the square-free part: if the first eight terms are those of a sequence with the minimal polynomial `x^4`, the loop ends
although this degree is not smaller than the tentative degree; the minimal polynomial may be `x^9`. -/
theorem C95_square {hg : K[X] → K[X] → HM K} (hhg : HgcdOk hg) {sqf : K[X] → List (K[X] × ℕ)} (hsqf : ∀ V : K[X], V.Monic → SqfOk V (sqf V)) {ncols : ℕ} (h : 9 ≤ ncols) :
    IsMinPoly (X ^ 9 : K[X]) (fun i => delta 3 i + delta 8 i) ∧ elimPoly hg ((List.range 8).map fun i => (delta 3 i + delta 8 i : K)) 4 = X ^ 4 ∧
      run ncols (fun t => (guess hg sqf (fun i => (delta 3 i + delta 8 i : K)) t).natDegree) = .done (some 4) := by
  have hm : IsMinPoly (X ^ 4 : K[X]) (delta 3) := min_of_last (by simp [delta]) (fun i hi => by simp [delta]; omega)
  have hab : ∀ i < 2 * 4, (delta 3 i + delta 8 i : K) = delta 3 i := fun i hi => by
    have : (delta 8 i : K) = 0 := by simp [delta]; omega
    rw [this, add_zero]
  have hrec : ∃ f : K[X], f ≠ 0 ∧ f.natDegree ≤ 4 ∧ Annihilates f (delta 3 : ℕ → K) := ⟨X ^ 4, (monic_X_pow 4).ne_zero, by simp, hm.2.1⟩
  refine ⟨min_of_last (by simp [delta]) (fun i hi => ?_), ?_, run_of_lt (by omega) ?_⟩
  · have h3 : i ≠ 3 := by omega
    have h8 : i ≠ 8 := by omega
    simp [delta, h3, h8]
  · have h8 := (C25_minpoly hhg (delta 3 : ℕ → K) 4 hrec ((List.range 8).map fun i => (delta 3 i + delta 8 i : K)) (by simp) (fun i hi => by
      have hi' : i < 8 := hi
      simp [List.getD, hi', hab i hi])).1
    exact C25_unique h8 hm
  · rw [guess_of_min hhg (a := fun i => (delta 3 i + delta 8 i : K)) hab hrec hm, sqfColon_eq]
    obtain ⟨-, g2, g3, -⟩ := sqfPart_spec (monic_X_pow 4) (hsqf (X ^ 4) (monic_X_pow 4)) (X ^ 4 : K[X]).natDegree
    obtain ⟨k, hk, hass⟩ := (dvd_prime_pow prime_X 4).mp g3
    have hdeg := natDegree_eq_of_degree_eq (degree_eq_degree_of_associated hass)
    rw [hdeg, natDegree_X_pow]
    by_contra hc
    have : (X ^ 2 : K[X]) ∣ _ := (pow_dvd_pow X (by omega : 2 ≤ k)).trans hass.symm.dvd
    rw [pow_two] at this
    exact not_isUnit_X (g2 X this)

/-- C95 (finding): for one row, the constant coefficient of the polynomial is read behind the array `lineqs`, which has one entry per variable here (msolve.c 3965), for every number of variables. -/
theorem C95_one_row {lineqs : List ℕ} {nvars : ℕ} (h : 1 ≤ nvars) (hl : lineqs.length = nvars) : oneRow lineqs nvars = none := by
  have : nvars * 2 ≤ nvars * (nvars + 1) := Nat.mul_le_mul_left _ (by omega)
  unfold oneRow
  rw [List.getElem?_eq_none (by omega)]
  rfl

/-- The array would have to be as long as it is elsewhere, one row of coefficients per variable. -/
example : oneRow [0, 0, 5, 0, 0, 3] 2 = some [3, 1] := rfl

/-- The hypotheses of `C95_right_partial` are met: a constant sequence, with `x-1`. -/
example {hg : ℚ[X] → ℚ[X] → HM ℚ} (hhg : HgcdOk hg) {sqf : ℚ[X] → List (ℚ[X] × ℕ)} (hsqf : ∀ V : ℚ[X], V.Monic → SqfOk V (sqf V)) :
    ∃ t m, run 5 (fun t => (guess hg sqf (fun _ => 1) t).natDegree) = .done (some t) ∧ IsMinPoly m (fun _ => (1 : ℚ)) ∧ guess hg sqf (fun _ => 1) t ∣ m := by
  obtain ⟨t, h1, h2, -⟩ := C95_loop (ncols := 5) (by norm_num) (fun t => (guess hg sqf (fun _ => 1) t).natDegree)
  obtain ⟨m, g1, -, -, g2, -⟩ := C95_right_partial hhg hsqf (fun _ => 1) h1 ⟨X - C 1, X_sub_C_ne_zero 1, by rw [natDegree_X_sub_C]; omega, fun i => by
    rw [natDegree_X_sub_C, Finset.sum_range_succ, Finset.sum_range_one]
    simp [coeff_X, coeff_one]⟩
  exact ⟨t, m, h1, g1, g2⟩

/-- The hypotheses of `C95_full` are met: a sequence with the minimal polynomial `x^4` and four rows. -/
example {hg : ℚ[X] → ℚ[X] → HM ℚ} (hhg : HgcdOk hg) {sqf : ℚ[X] → List (ℚ[X] × ℕ)} (hsqf : ∀ V : ℚ[X], V.Monic → SqfOk V (sqf V)) :
    ∃ t, run 4 (fun t => (guess hg sqf (delta 3) t).natDegree) = .done (some t) ∧ guess hg sqf (delta 3) t ∣ X ^ 4 := by
  have hm : IsMinPoly (X ^ 4 : ℚ[X]) (delta 3) := min_of_last (by simp [delta]) (fun i hi => by simp [delta]; omega)
  obtain ⟨t, h1, m, g1, -, -, g2, -⟩ := C95_full hhg hsqf (delta 3) (ncols := 4) (by norm_num) (fun t h h' => by omega) ⟨X ^ 4, (monic_X_pow 4).ne_zero, by simp, hm.2.1⟩
  exact ⟨t, h1, by rw [← C25_unique g1 hm]; exact g2⟩

end Verif.Props
