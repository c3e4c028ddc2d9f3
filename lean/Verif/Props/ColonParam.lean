import Verif.ColonParam
import Verif.Props.ColonSeq
import Verif.Props.ColonCheck

/-!
C98: the parametrizations of `msolve -C`.
-/
namespace Verif.Props
open Polynomial Verif.Spec Verif.BM
open Verif.ColonSeq (guess)
open Verif.ColonParam (loop run report)
open Verif.Fglm (XgcdOk invTable coordTable tablePoly)

variable {K : Type*} [Field K]

namespace ColonParam

theorem loop_spec {hg : K[X] → K[X] → HM K} {sqf : K[X] → List (K[X] × ℕ)} {a : ℕ → K} {ncols : ℕ} : ∀ (fuel i t : ℕ) (elim V : K[X]) (last : Option ℕ), 1 ≤ t → t ≤ ncols → min 4 ncols ≤ t →
    (i ≤ 2 * t - 1 ∨ (i = 2 * t ∧ t = ncols ∧ last = some t ∧ elim = guess hg sqf a t ∧ V = 1 ∧ t ≤ (guess hg sqf a t).natDegree)) → 2 * ncols < fuel + i →
    ∃ t', Verif.ColonSeq.loop ncols (fun t => (guess hg sqf a t).natDegree) fuel i t last = .done (some t') ∧ min 4 ncols ≤ t' ∧ t' ≤ ncols ∧
      (((guess hg sqf a t').natDegree < t' ∧ loop hg sqf a ncols fuel i t elim V = some (guess hg sqf a t', elimPoly hg ((List.range (2 * t')).map a) t')) ∨
        (t' = ncols ∧ t' ≤ (guess hg sqf a t').natDegree ∧ loop hg sqf a ncols fuel i t elim V = some (guess hg sqf a t', 1))) := by
  intro fuel
  induction fuel with
  | zero => intro i t elim V last h1 h2 h3 h4 h5; omega
  | succ fuel ih =>
    intro i t elim V last h1 h2 h3 h4 h5
    rw [loop, Verif.ColonSeq.loop]
    by_cases hi : i ≤ 2 * t - 1
    · have h6 : ¬ 2 * ncols ≤ i := by omega
      simp only [if_pos hi, if_neg h6]
      by_cases he : i = 2 * t - 1
      · simp only [if_pos he]
        by_cases hd : (guess hg sqf a t).natDegree < t
        · simp only [if_pos hd]
          exact ⟨t, rfl, h3, h2, .inl ⟨hd, rfl⟩⟩
        · simp only [if_neg hd]
          refine ih _ _ _ _ _ (by omega) (by omega) (by omega) ?_ (by omega)
          by_cases ht : t = ncols
          · have e : min (3 * (guess hg sqf a t).natDegree) ncols = t := by omega
            rw [e]
            exact .inr ⟨by omega, ht, rfl, rfl, rfl, by omega⟩
          · exact .inl (by omega)
      · simp only [if_neg he]
        exact ih _ _ _ _ _ h1 h2 h3 (.inl (by omega)) (by omega)
    · simp only [if_neg hi]
      obtain ⟨-, g2, g3, g4, g5, g6⟩ := h4.resolve_left hi
      exact ⟨t, by rw [g3], h3, h2, .inr ⟨g2, g6, by rw [g4, g5]⟩⟩

/-- With `V1 = 1` the table is empty, and nothing can be inverted. -/
theorem invTable_one {xg : K[X] → K[X] → K[X] × K[X] × K[X]} (hxg : XgcdOk xg) {e : K[X]} (he : 0 < e.natDegree) (w : ℕ → K) : invTable xg e 1 w = none := by
  have ht : tablePoly (1 : K[X]) w = 0 := by simp [tablePoly]
  unfold invTable
  simp only [ht]
  rw [if_neg]
  have hb := hxg.bez e 0
  rw [mul_zero, add_zero] at hb
  have he0 : e ≠ 0 := fun h => by rw [h] at he; simp at he
  have hm := (hxg.monic e 0 (.inl he0)).ne_zero
  rw [dg_of_ne hm]
  have := natDegree_le_of_dvd (Dvd.intro_left _ hb) hm
  omega

end ColonParam

open Verif.Props.ColonParam

/-- C98: what is left after the loop: the polynomial for the last tentative degree `t` (the one of C95), and its minimal polynomial of the sequence if the loop was left early; otherwise the
minimal polynomial was replaced by 1. -/
theorem C98_state (hg : K[X] → K[X] → HM K) (sqf : K[X] → List (K[X] × ℕ)) (a : ℕ → K) {ncols : ℕ} (h : 1 ≤ ncols) :
    ∃ t, Verif.ColonSeq.run ncols (fun t => (guess hg sqf a t).natDegree) = .done (some t) ∧ min 4 ncols ≤ t ∧ t ≤ ncols ∧
      (((guess hg sqf a t).natDegree < t ∧ run hg sqf a ncols = some (guess hg sqf a t, elimPoly hg ((List.range (2 * t)).map a) t)) ∨
        (t = ncols ∧ t ≤ (guess hg sqf a t).natDegree ∧ run hg sqf a ncols = some (guess hg sqf a t, 1))) :=
  loop_spec _ _ _ _ _ _ (by omega) (by omega) le_rfl (.inl (by omega)) (by omega)

/-- C98 (finding): if the minimal polynomial is square-free and its degree is the number of rows, and the loop is not left early, the inversion fails, the message says that there should be a bug, and
the pointer `NULL` is read, whatever the prime and the number of variables are. -/
theorem C98_full_degree {hg : K[X] → K[X] → HM K} (hhg : HgcdOk hg) {sqf : K[X] → List (K[X] × ℕ)} {xg : K[X] → K[X] → K[X] × K[X] × K[X]} (hxg : XgcdOk xg) {a : ℕ → K} {ncols : ℕ}
    (h1 : 1 ≤ ncols) (hno : ∀ t, 4 ≤ t → t < ncols → t ≤ (guess hg sqf a t).natDegree) {m : K[X]} (hm : IsMinPoly m a) (hsq : Squarefree m) (hd : m.natDegree = ncols) (prime : ℕ) {nvars : ℕ}
    (hv : 1 ≤ nvars) (ok : ℕ → Bool) : run hg sqf a ncols = some (m, 1) ∧ report hg sqf xg a ncols prime nvars ok = some .null := by
  have hgs : guess hg sqf a ncols = m := by
    rw [ColonSeq.guess_of_min hhg (fun _ _ => rfl) ⟨m, hm.1.ne_zero, hd.le, hm.2.1⟩ hm]
    unfold Verif.ColonSeq.sqfColon
    rw [if_pos hsq]
  obtain ⟨t, -, h3, h4, h5⟩ := C98_state hg sqf a h1
  have hr : run hg sqf a ncols = some (m, 1) := by
    rcases h5 with ⟨h5, -⟩ | ⟨rfl, -, h6⟩
    · exfalso
      by_cases ht : t = ncols
      · rw [ht, hgs, hd] at h5
        omega
      · have := hno t (by omega) (by omega)
        omega
    · rw [h6, hgs]
  refine ⟨hr, ?_⟩
  unfold report
  rw [hr]
  simp only [Option.map_some]
  rw [invTable_one hxg (by omega)]
  exact congrArg some ((C97_null hv _ _ _ _).mpr (.inr rfl))

/-- C98: if the loop is left early at the tentative degree `t`, and the sequence satisfies a recurrence of at most this order, the inversion succeeds; and a coordinate whose sequence is the polynomial
`q` in the shift applied to the sequence gets the negative of the remainder of `q`.

Partial: if the loop is not left early, the inversion fails, see `C98_full_degree`. -/
theorem C98_coordinate_partial {hg : K[X] → K[X] → HM K} (hhg : HgcdOk hg) {sqf : K[X] → List (K[X] × ℕ)} (hsqf : ∀ V : K[X], V.Monic → SqfOk V (sqf V)) {xg : K[X] → K[X] → K[X] × K[X] × K[X]}
    (hxg : XgcdOk xg) {a : ℕ → K} {ncols t : ℕ} (h1 : 1 ≤ ncols) (ht : Verif.ColonSeq.run ncols (fun t => (guess hg sqf a t).natDegree) = .done (some t)) (hearly : (guess hg sqf a t).natDegree < t)
    (hrec : ∃ f : K[X], f ≠ 0 ∧ f.natDegree ≤ t ∧ Annihilates f a) :
    ∃ e V Z2, run hg sqf a ncols = some (e, V) ∧ IsMinPoly V a ∧ e ∣ V ∧ (∃ N, V ∣ e ^ N) ∧ Squarefree e ∧ invTable xg e V a = some Z2 ∧
      ∀ (q : K[X]) (w : ℕ → K), (∀ i, w i = ∑ j ∈ Finset.range (q.natDegree + 1), q.coeff j * a (i + j)) → coordTable e V Z2 w = -(q % e) := by
  obtain ⟨t', g1, -, -, g2⟩ := C98_state hg sqf a h1
  obtain rfl : t = t' := by
    rw [ht] at g1
    simpa using g1
  have hr : run hg sqf a ncols = some (guess hg sqf a t, elimPoly hg ((List.range (2 * t)).map a) t) := by
    rcases g2 with ⟨-, g2⟩ | ⟨-, g2, -⟩
    · exact g2
    · omega
  have hV := (C25_minpoly hhg a t hrec ((List.range (2 * t)).map a) (by simp) (fun i hi => by simp [List.getD, hi])).1
  obtain ⟨m, k1, k2, k3, k4, k5⟩ := C95_right_partial hhg hsqf a ht hrec
  obtain rfl := C25_unique k1 hV
  set V := elimPoly hg ((List.range (2 * t)).map a) t
  set e := guess hg sqf a t
  have hcop : IsCoprime e (tablePoly V a) := (Verif.Fglm.tablePoly_coprime hV).of_isCoprime_of_dvd_left k4
  obtain ⟨c1, c2⟩ := Verif.Fglm.xgcd_inv hxg k2.ne_zero hcop
  refine ⟨e, V, (xg e (tablePoly V a)).2.2, hr, hV, k4, k5, k3, ?_, fun q w hw => ?_⟩
  · unfold invTable
    simp only
    rw [c1, dg_of_ne one_ne_zero, natDegree_one, if_pos (by simp)]
  · have hw' : w = act q a := by
      funext i
      rw [hw, act_apply q a i (Nat.lt_succ_self _)]
    subst hw'
    set b := tablePoly V a with hb
    set Z2 := (xg e b).2.2
    have d1 : e ∣ tablePoly V (act q a) - q * b := k4.trans (Verif.Fglm.tablePoly_act hV.2.1 q)
    have d2 : e ∣ tablePoly V (act q a) * Z2 - q := by
      have := dvd_add (dvd_mul_of_dvd_left d1 Z2) (dvd_mul_of_dvd_right c2 q)
      have e1 : tablePoly V (act q a) * Z2 - q = (tablePoly V (act q a) - q * b) * Z2 + q * (Z2 * b - 1) := by ring
      rw [e1]
      exact this
    unfold coordTable
    rw [neg_inj, ← sub_eq_zero, ← Polynomial.sub_mod]
    exact EuclideanDomain.mod_eq_zero.mpr d2

/-- The hypotheses of `C98_full_degree` are met: the sequence 2, 1, 1, ... with `x*(x-1)` and two rows. -/
example {hg : ℚ[X] → ℚ[X] → HM ℚ} (hhg : HgcdOk hg) {sqf : ℚ[X] → List (ℚ[X] × ℕ)} {xg : ℚ[X] → ℚ[X] → ℚ[X] × ℚ[X] × ℚ[X]} (hxg : XgcdOk xg) :
    report hg sqf xg (fun i => if i = 0 then 2 else 1) 2 65521 3 (fun _ => true) = some .null := by
  have hcop : IsCoprime (X : ℚ[X]) (X - C 1) := by
    have h := isCoprime_X_sub_C_of_isUnit_sub (R := ℚ) (a := 0) (b := 1) (by norm_num)
    rwa [C_0, sub_zero] at h
  have hd : (X * (X - C 1) : ℚ[X]).natDegree = 2 := by rw [natDegree_mul X_ne_zero (X_sub_C_ne_zero 1), natDegree_X, natDegree_X_sub_C]
  refine (C98_full_degree hhg hxg (m := X * (X - C 1)) (by norm_num) (fun t h h' => by omega) ⟨monic_X.mul (monic_X_sub_C 1), fun i => ?_, fun g hg => ?_⟩ ?_ hd 65521 (by norm_num) _).2
  · rw [hd, Finset.sum_range_succ, Finset.sum_range_succ, Finset.sum_range_one]
    simp [coeff_X_mul, coeff_X, coeff_one]
  · have h0 := hg 0
    have h1 := hg 1
    rw [Finset.sum_range_succ'] at h0 h1
    simp at h0 h1
    have hc : g.coeff 0 = 0 := by linarith
    refine hcop.mul_dvd (X_dvd_iff.mpr hc) (dvd_iff_isRoot.mpr ?_)
    rw [IsRoot, eval_eq_sum_range, Finset.sum_range_succ']
    simp
    linarith
  · exact squarefree_mul_iff.mpr ⟨hcop.isRelPrime, irreducible_X.squarefree, (irreducible_X_sub_C 1).squarefree⟩

/-- The hypotheses of `C98_coordinate_partial` are met: the constant sequence, with five rows; the coordinate `x^2` gets the negative of its remainder. -/
example {hg : ℚ[X] → ℚ[X] → HM ℚ} (hhg : HgcdOk hg) {sqf : ℚ[X] → List (ℚ[X] × ℕ)} (hsqf : ∀ V : ℚ[X], V.Monic → SqfOk V (sqf V)) {xg : ℚ[X] → ℚ[X] → ℚ[X] × ℚ[X] × ℚ[X]} (hxg : XgcdOk xg) :
    ∃ e V Z2, run hg sqf (fun _ => 1) 5 = some (e, V) ∧ invTable xg e V (fun _ => 1) = some Z2 ∧ coordTable e V Z2 (fun _ => 1) = -(X ^ 2 % e) := by
  have hm : IsMinPoly (X - C 1 : ℚ[X]) (fun _ => 1) := by
    refine ⟨monic_X_sub_C 1, fun i => ?_, fun g hg => ?_⟩
    · rw [natDegree_X_sub_C, Finset.sum_range_succ, Finset.sum_range_one]
      simp [coeff_X, coeff_one]
    · rw [dvd_iff_isRoot, IsRoot, eval_eq_sum_range]
      simpa using hg 0
  have hrec : ∃ f : ℚ[X], f ≠ 0 ∧ f.natDegree ≤ 4 ∧ Annihilates f (fun _ => (1 : ℚ)) := ⟨X - C 1, X_sub_C_ne_zero 1, by rw [natDegree_X_sub_C]; norm_num, hm.2.1⟩
  have hgs : guess hg sqf (fun _ => (1 : ℚ)) 4 = X - C 1 := by
    rw [ColonSeq.guess_of_min hhg (fun _ _ => rfl) hrec hm]
    unfold Verif.ColonSeq.sqfColon
    rw [if_pos (irreducible_X_sub_C 1).squarefree]
  have hd : (guess hg sqf (fun _ => (1 : ℚ)) 4).natDegree < 4 := by rw [hgs, natDegree_X_sub_C]; norm_num
  obtain ⟨e, V, Z2, h1, -, -, -, -, h2, h3⟩ := C98_coordinate_partial hhg hsqf hxg (ncols := 5) (by norm_num) (ColonSeq.run_of_lt (by norm_num) hd) hd hrec
  refine ⟨e, V, Z2, h1, h2, h3 (X ^ 2) _ fun i => ?_⟩
  rw [natDegree_X_pow, Finset.sum_range_succ, Finset.sum_range_succ, Finset.sum_range_one]
  simp [coeff_X_pow]

end Verif.Props
