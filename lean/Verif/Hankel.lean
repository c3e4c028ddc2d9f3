import Verif.BMSeq
import Verif.Spec.Hankel
import Mathlib.LinearAlgebra.FiniteDimensional.Basic
import Mathlib.Algebra.BigOperators.Ring.Finset
import Mathlib.Tactic.FieldSimp

/-! Model of the Hankel solver, src/fglm/fglm_core.c 154-199, 207-270, 425-472.  The branch for a first vector
with last entry zero (fglm_core.c 256-354, "not tested intensively") is not modelled, it is the outcome
`other`. -/

namespace Verif.Hankel

open Polynomial Verif.BM Verif.Spec

variable {K : Type*} [Field K]

/-- `mirror_poly_solve`, fglm_core.c 176-189, and `nmod_poly_reverse`. -/
noncomputable def mirror (f : K[X]) (len : ℕ) : K[X] := ∑ i ∈ Finset.range len, C (f.coeff i) * X ^ (len - 1 - i)

/-- `nmod_poly_mullow`. -/
noncomputable def mullow (f g : K[X]) (d : ℕ) : K[X] := (f * g) %ₘ X ^ d

/-- Result of `invert_hankel_matrix`; `ub` is the access `coeffs[-1]` for a zero remainder, `other` is the
branch `V1(0) = 0`, fglm_core.c 253-354, which is only modelled up to its first loop (`otherRt`). -/
inductive Inv (K : Type*) [Field K] where
  | singular
  | other
  | ub
  | ok (Z1 Z2 : K[X])

/-- `LC(R1)^-1 * V1`, fglm_core.c 232-234 and 247-250. -/
noncomputable def normV (s : St K) : K[X] := C s.R1.leadingCoeff⁻¹ * s.V1

/-- `invert_hankel_matrix`, fglm_core.c 212-252.  (`mirror_points` 154-162 reverses the points.) -/
noncomputable def invert (hg : K[X] → K[X] → HM K) (pts : List K) (d : ℕ) : Inv K := by
  classical
  exact
      let p := pts.take (2 * d - 1)
      let s := emgcd hg St.init 0 p.reverse
      if dg s.R1 < (d : Int) - 1 ∧ 1 < d then .singular
      else if s.V1.coeff 0 ≠ 0 then
        if s.R1 = 0 then .ub
        else
          let s2 := emgcd hg St.init 0 p
          if s2.R1 = 0 then .ub else .ok (normV s) (normV s2)
      else .other

/-- The coefficients `rt[queue_len], ..., rt[1]` that the branch `V1(0) = 0` sets first, fglm_core.c 259-269: `points->length` has been set to `2 * dim + 1`
without asking for memory, the points are those of line 222, with the first `2 * dim - 1` reversed.  `none`: read outside the buffer (fglm_core.c 860 asks
for `2 * dimquot` elements, berlekamp_massey.c 155-168). -/
def otherRt (pts : List K) (d : ℕ) : Option (List K) :=
  (List.range (2 * d + 1)).mapM fun i => ((pts.take (2 * d - 1)).reverse ++ pts.drop (2 * d - 1))[i]?

/-- `solve_hankel`, fglm_core.c 425-472, for the right hand side `w`. -/
noncomputable def solve (Z1 Z2 : K[X]) (d : ℕ) (w : ℕ → K) : K[X] :=
  let V := mirror (∑ i ∈ Finset.range d, C (w i) * X ^ i) d
  let rZ1 := mirror Z1 (d + 1)
  let rZ2 := mirror Z2 (d + 1)
  let A := mullow rZ1 V d
  let B := mullow Z2 V d
  let B := mirror B d
  let A := mirror A d
  let rZ1 := mullow Z1 B d
  let rZ2 := mullow rZ2 A d
  C (Z1.coeff 0)⁻¹ * (rZ1 + -rZ2)

/-! ### Linear algebra of Hankel systems -/

theorem sum_comm_apply (u : ℕ → K) (d : ℕ) (a b : ℕ → K) :
    ∑ i ∈ Finset.range d, hmul u d a i * b i = ∑ i ∈ Finset.range d, a i * hmul u d b i := by
  unfold hmul
  simp only [Finset.sum_mul, Finset.mul_sum]
  rw [Finset.sum_comm]
  refine Finset.sum_congr rfl fun i _ => Finset.sum_congr rfl fun j _ => ?_
  rw [Nat.add_comm j i]
  ring

theorem hmul_add (u : ℕ → K) (d : ℕ) (a b : ℕ → K) (t : ℕ) : hmul u d (fun i => a i + b i) t = hmul u d a t + hmul u d b t := by
  unfold hmul
  rw [← Finset.sum_add_distrib]
  exact Finset.sum_congr rfl fun i _ => mul_add _ _ _

theorem hmul_smul (u : ℕ → K) (d : ℕ) (c : K) (b : ℕ → K) (t : ℕ) : hmul u d (fun i => c * b i) t = c * hmul u d b t := by
  unfold hmul
  rw [Finset.mul_sum]
  exact Finset.sum_congr rfl fun i _ => by ring

theorem hmul_congr {u : ℕ → K} {d : ℕ} {a b : ℕ → K} (h : ∀ i, i < d → a i = b i) (t : ℕ) : hmul u d a t = hmul u d b t := by
  unfold hmul
  exact Finset.sum_congr rfl fun i hi => by rw [h i (Finset.mem_range.mp hi)]

/-- The linear map of the Hankel matrix. -/
noncomputable def hlin (u : ℕ → K) (d : ℕ) : (Fin d → K) →ₗ[K] (Fin d → K) where
  toFun v t := ∑ i : Fin d, u (t.1 + i.1) * v i
  map_add' a b := by
    funext t
    simp only [Pi.add_apply, mul_add, Finset.sum_add_distrib]
  map_smul' c a := by
    funext t
    simp only [Pi.smul_apply, smul_eq_mul, RingHom.id_apply, Finset.mul_sum]
    exact Finset.sum_congr rfl fun i _ => by ring

theorem surj_of_regular {u : ℕ → K} {d : ℕ} (h : Regular u d) (w : ℕ → K) :
    ∃ v : ℕ → K, ∀ t, t < d → hmul u d v t = w t := by
  have hinj : Function.Injective (hlin u d) := by
    rw [← LinearMap.ker_eq_bot, LinearMap.ker_eq_bot']
    intro v hv
    funext i
    have := h (fun j => if hj : j < d then v ⟨j, hj⟩ else 0) (fun t ht => ?_) i.1 i.2
    · rw [dif_pos i.2] at this
      exact this
    · have h1 := congrFun hv ⟨t, ht⟩
      unfold hmul
      rw [Finset.sum_range]
      simp only [Fin.is_lt, dite_true]
      exact h1
  have hsurj := LinearMap.injective_iff_surjective.mp hinj
  obtain ⟨v, hv⟩ := hsurj fun i => w i.1
  refine ⟨fun j => if hj : j < d then v ⟨j, hj⟩ else 0, fun t ht => ?_⟩
  have h1 := congrFun hv ⟨t, ht⟩
  unfold hmul
  rw [Finset.sum_range]
  simp only [Fin.is_lt, dite_true]
  exact h1

/-- The entry of the inverse computed by the solver. -/
def gs (x y : ℕ → K) (i j : ℕ) : K :=
  ∑ l ∈ Finset.range (j + 1), (x (i + l) * y (j - l) - y (i + l + 1) * (if l < j then x (j - l - 1) else 0))

theorem gs_succ (x y : ℕ → K) (i j : ℕ) :
    gs x y i (j + 1) = gs x y (i + 1) j + (x i * y (j + 1) - y (i + 1) * x j) := by
  unfold gs
  rw [Finset.sum_range_succ' _ (j + 1)]
  simp only [Nat.add_zero, Nat.sub_zero, Nat.zero_lt_succ, if_true, Nat.add_sub_cancel]
  congr 1
  refine Finset.sum_congr rfl fun l hl => ?_
  rw [Finset.mem_range] at hl
  rw [show i + (l + 1) = i + 1 + l by omega, show j + 1 - (l + 1) = j - l by omega]
  simp only [Nat.add_lt_add_iff_right]

theorem gs_zero (x y : ℕ → K) (i : ℕ) : gs x y i 0 = x i * y 0 := by
  simp [gs]

theorem gs_last_row {x y : ℕ → K} {d : ℕ} (hd : 0 < d) (hx0 : ∀ i, d ≤ i → x i = 0) (hy0 : ∀ i, d ≤ i → y i = 0) (j : ℕ) :
    gs x y (d - 1) j = x (d - 1) * y j := by
  unfold gs
  rw [Finset.sum_range_succ']
  simp only [Nat.add_zero, Nat.sub_zero]
  rw [hy0 (d - 1 + 1) (by omega), zero_mul, sub_zero, Finset.sum_eq_zero, zero_add]
  intro l _
  rw [hx0 (d - 1 + (l + 1)) (by omega), hy0 (d - 1 + (l + 1) + 1) (by omega)]
  ring

theorem gs_last_col {x y : ℕ → K} {d : ℕ} (hd : 0 < d) (hx0 : ∀ i, d ≤ i → x i = 0) (hy0 : ∀ i, d ≤ i → y i = 0) (i : ℕ)
    (hi : i < d) : gs x y i (d - 1) = x (d - 1) * y i := by
  unfold gs
  rw [show d - 1 + 1 = d by omega, Finset.sum_sub_distrib]
  have h1 : ∑ l ∈ Finset.range d, x (i + l) * y (d - 1 - l) = ∑ l ∈ Finset.range (d - i), x (i + l) * y (d - 1 - l) := by
    symm
    apply Finset.sum_subset
    · intro l hl
      rw [Finset.mem_range] at *
      omega
    · intro l _ hl
      rw [Finset.mem_range] at hl
      rw [hx0 _ (by omega), zero_mul]
  have h2 : ∑ l ∈ Finset.range d, y (i + l + 1) * (if l < d - 1 then x (d - 1 - l - 1) else 0) =
      ∑ l ∈ Finset.range (d - i - 1), y (i + l + 1) * x (d - 1 - l - 1) := by
    symm
    refine Finset.sum_subset_zero_on_sdiff ?_ ?_ ?_
    · intro l hl
      rw [Finset.mem_range] at *
      omega
    · intro l hl
      rw [Finset.mem_sdiff, Finset.mem_range, Finset.mem_range] at hl
      rw [hy0 _ (by omega), zero_mul]
    · intro l hl
      rw [Finset.mem_range] at hl
      rw [if_pos (by omega)]
  have h3 : ∑ l ∈ Finset.range (d - i - 1), y (i + l + 1) * x (d - 1 - l - 1) =
      ∑ l ∈ Finset.range (d - i - 1), x (i + l) * y (d - 1 - l) := by
    rw [← Finset.sum_range_reflect]
    refine Finset.sum_congr rfl fun l hl => ?_
    rw [Finset.mem_range] at hl
    rw [show i + (d - i - 1 - 1 - l) + 1 = d - 1 - l by omega, show d - 1 - (d - i - 1 - 1 - l) - 1 = i + l by omega]
    ring
  rw [h1, h2, h3, show d - i = (d - i - 1) + 1 by omega, Finset.sum_range_succ, Nat.add_sub_cancel, add_sub_cancel_left,
    show i + (d - i - 1) = d - 1 by omega, show d - 1 - (d - i - 1) = i by omega]

/-- Shifted vector. -/
def sh (v : ℕ → K) : ℕ → K
  | 0 => 0
  | j + 1 => v j

theorem hmul_sh (u : ℕ → K) {d : ℕ} (hd : 0 < d) (v : ℕ → K) (t : ℕ) :
    hmul u d (sh v) t + u (t + d) * v (d - 1) = hmul u d v (t + 1) := by
  unfold hmul
  obtain ⟨e, rfl⟩ := Nat.exists_eq_succ_of_ne_zero (Nat.ne_of_gt hd)
  rw [Finset.sum_range_succ', Finset.sum_range_succ _ e]
  simp only [sh, mul_zero, add_zero, Nat.succ_eq_add_one, Nat.add_sub_cancel]
  rw [show t + (e + 1) = t + 1 + e by omega]
  congr 1
  refine Finset.sum_congr rfl fun j _ => ?_
  rw [show t + (j + 1) = t + 1 + j by omega]

/-- Rows of the inverse. -/
theorem gs_rows {u x y : ℕ → K} {d : ℕ} (hd : 0 < d) (hreg : Regular u d)
    (hx : ∀ t, t < d → hmul u d x t = if t = 0 then 1 else 0)
    (hy : ∀ t, t < d → hmul u d y t = if t = d - 1 then 1 else 0)
    (hx0 : ∀ i, d ≤ i → x i = 0) (hy0 : ∀ i, d ≤ i → y i = 0) (hxy : x (d - 1) = y 0) :
    ∀ k i, i + k = d - 1 → ∀ t, t < d → hmul u d (gs x y i) t = if t = i then y 0 else 0 := by
  -- the vector z
  obtain ⟨z, hz⟩ := surj_of_regular hreg (fun t => if t = d - 1 then 0 else u (t + d))
  set c := ∑ i ∈ Finset.range d, z i * (if i = 0 then 1 else 0 : K) with hc
  have hc0 : c = z 0 := by
    rw [hc, Finset.sum_eq_single 0]
    · simp
    · intro i _ hi
      simp [hi]
    · intro h
      exact absurd (Finset.mem_range.mpr hd) h
  -- products with h
  have hprod : ∀ v : ℕ → K, ∑ i ∈ Finset.range d, (if i = d - 1 then 0 else u (i + d)) * v i = hmul u d (sh v) (d - 1) := by
    intro v
    unfold hmul
    obtain ⟨e, rfl⟩ := Nat.exists_eq_succ_of_ne_zero (Nat.ne_of_gt hd)
    rw [Finset.sum_range_succ, Finset.sum_range_succ' _ e]
    simp only [sh, mul_zero, add_zero, Nat.succ_eq_add_one, Nat.add_sub_cancel, if_true, zero_mul]
    refine Finset.sum_congr rfl fun j hj => ?_
    rw [Finset.mem_range] at hj
    rw [if_neg (by omega), show j + (e + 1) = e + (j + 1) by omega]
  have hzdot : ∀ v : ℕ → K, hmul u d (sh v) (d - 1) = ∑ i ∈ Finset.range d, z i * hmul u d v i := by
    intro v
    rw [← hprod, ← sum_comm_apply]
    refine Finset.sum_congr rfl fun i hi => ?_
    rw [hz i (Finset.mem_range.mp hi)]
  have hz0 : hmul u d (sh x) (d - 1) = z 0 := by
    rw [hzdot, ← hc0, hc]
    refine Finset.sum_congr rfl fun i hi => ?_
    rw [hx i (Finset.mem_range.mp hi)]
  have hMx : ∀ i, i < d → sh x i = y i * z 0 - z i * y 0 := by
    have := hreg (fun i => sh x i + (-(z 0) * y i + y 0 * z i)) (fun t ht => ?_)
    · intro i hi
      have := this i hi
      linear_combination this
    · rw [hmul_add u d (sh x) (fun i => -(z 0) * y i + y 0 * z i), hmul_add u d (fun i => -(z 0) * y i) (fun i => y 0 * z i),
        hmul_smul, hmul_smul, hy t ht, hz t ht]
      by_cases h : t = d - 1
      · rw [h, if_pos rfl, if_pos rfl, hz0]
        ring
      · rw [if_neg h, if_neg h]
        have h1 := hmul_sh u hd x t
        rw [hx (t + 1) (by omega), if_neg (by omega), hxy] at h1
        linear_combination h1
  intro k
  induction k with
  | zero =>
    intro i hi t ht
    have : i = d - 1 := by omega
    subst this
    rw [hmul_congr (fun j _ => gs_last_row hd hx0 hy0 j), hmul_smul, hy t ht, hxy]
    split_ifs <;> ring
  | succ k ih =>
    intro i hi t ht
    have ih := ih (i + 1) (by omega)
    have hrow : ∀ j, j < d → gs x y i j = sh (gs x y (i + 1)) j + (x i * y j + -(y (i + 1)) * sh x j) := by
      intro j _
      cases j with
      | zero => rw [gs_zero]; simp only [sh]; ring
      | succ j => rw [gs_succ]; simp only [sh]; ring
    rw [hmul_congr hrow, hmul_add u d (sh (gs x y (i + 1))) (fun j => x i * y j + -(y (i + 1)) * sh x j),
      hmul_add u d (fun j => x i * y j) (fun j => -(y (i + 1)) * sh x j), hmul_smul, hmul_smul, hy t ht]
    by_cases h : t = d - 1
    · rw [h, if_pos rfl, if_neg (by omega : ¬ d - 1 = i), hz0, hzdot]
      have h1 : ∑ j ∈ Finset.range d, z j * hmul u d (gs x y (i + 1)) j = z (i + 1) * y 0 := by
        rw [Finset.sum_eq_single (i + 1)]
        · rw [ih (i + 1) (by omega), if_pos rfl]
        · intro j hj hne
          rw [ih j (Finset.mem_range.mp hj), if_neg hne, mul_zero]
        · intro h
          exact absurd (Finset.mem_range.mpr (by omega)) h
      have h2 := hMx (i + 1) (by omega)
      simp only [sh] at h2
      rw [h1]
      linear_combination h2
    · rw [if_neg h]
      have h1 := hmul_sh u hd (gs x y (i + 1)) t
      have h2 := hmul_sh u hd x t
      rw [hx (t + 1) (by omega), if_neg (by omega), hxy] at h2
      rw [ih (t + 1) (by omega), gs_last_col hd hx0 hy0 _ (by omega), hxy] at h1
      simp only [Nat.add_right_cancel_iff] at h1
      linear_combination h1 - y (i + 1) * h2

theorem gs_solves {u x y : ℕ → K} {d : ℕ} (hd : 0 < d) (hreg : Regular u d)
    (hx : ∀ t, t < d → hmul u d x t = if t = 0 then 1 else 0)
    (hy : ∀ t, t < d → hmul u d y t = if t = d - 1 then 1 else 0)
    (hx0 : ∀ i, d ≤ i → x i = 0) (hy0 : ∀ i, d ≤ i → y i = 0) (hxy : x (d - 1) = y 0) (hy00 : y 0 ≠ 0) (w : ℕ → K) :
    ∀ t, t < d → hmul u d (fun i => (y 0)⁻¹ * ∑ j ∈ Finset.range d, gs x y i j * w j) t = w t := by
  obtain ⟨v, hv⟩ := surj_of_regular hreg w
  intro t ht
  rw [← hv t ht]
  refine hmul_congr (fun i hi => ?_) t
  have h1 : ∑ j ∈ Finset.range d, gs x y i j * w j = ∑ j ∈ Finset.range d, gs x y i j * hmul u d v j :=
    Finset.sum_congr rfl fun j hj => by rw [hv j (Finset.mem_range.mp hj)]
  rw [h1, ← sum_comm_apply, Finset.sum_eq_single i]
  · rw [gs_rows hd hreg hx hy hx0 hy0 hxy (d - 1 - i) i (by omega) i hi, if_pos rfl]
    field_simp
  · intro j hj hne
    rw [gs_rows hd hreg hx hy hx0 hy0 hxy (d - 1 - i) i (by omega) j (Finset.mem_range.mp hj), if_neg hne, zero_mul]
  · intro h
    exact absurd (Finset.mem_range.mpr hi) h

/-! ### Coefficients of the products in the solver -/

theorem mirror_coeff (f : K[X]) (len m : ℕ) : (mirror f len).coeff m = if m < len then f.coeff (len - 1 - m) else 0 := by
  unfold mirror
  rw [finsetSum_coeff]
  split_ifs with h
  · rw [Finset.sum_eq_single (len - 1 - m)]
    · rw [coeff_C_mul, coeff_X_pow, if_pos (by omega), mul_one]
    · intro i hi hne
      rw [Finset.mem_range] at hi
      rw [coeff_C_mul, coeff_X_pow, if_neg (by omega), mul_zero]
    · intro h'
      exact absurd (Finset.mem_range.mpr (by omega)) h'
  · refine Finset.sum_eq_zero fun i hi => ?_
    rw [Finset.mem_range] at hi
    rw [coeff_C_mul, coeff_X_pow, if_neg (by omega), mul_zero]

theorem mullow_coeff (f g : K[X]) (d m : ℕ) : (mullow f g d).coeff m = if m < d then (f * g).coeff m else 0 := by
  unfold mullow
  split_ifs with h
  · have := modByMonic_add_div (f * g) (X ^ d : K[X])
    conv_rhs => rw [← this]
    rw [coeff_add, coeff_X_pow_mul', if_neg (by omega), add_zero]
  · have := degree_modByMonic_lt (f * g) (monic_X_pow d : (X ^ d : K[X]).Monic)
    rw [degree_X_pow] at this
    exact coeff_eq_zero_of_degree_lt (lt_of_lt_of_le this (by exact_mod_cast Nat.le_of_not_lt h))

theorem coeff_mul_range (f g : K[X]) (m : ℕ) : (f * g).coeff m = ∑ k ∈ Finset.range (m + 1), f.coeff k * g.coeff (m - k) := by
  rw [coeff_mul, Finset.Nat.sum_antidiagonal_eq_sum_range_succ (fun j k => f.coeff j * g.coeff k)]

theorem coeff_mul_range' (f g : K[X]) (m : ℕ) : (f * g).coeff m = ∑ k ∈ Finset.range (m + 1), f.coeff (m - k) * g.coeff k := by
  rw [mul_comm, coeff_mul_range]
  exact Finset.sum_congr rfl fun k _ => mul_comm _ _

theorem tri (d : ℕ) (a : ℕ → ℕ → K) :
    ∑ l ∈ Finset.range d, ∑ k ∈ Finset.range (d - l), a l (l + k) = ∑ j ∈ Finset.range d, ∑ l ∈ Finset.range (j + 1), a l j := by
  have h1 : ∀ l ∈ Finset.range d, ∑ k ∈ Finset.range (d - l), a l (l + k) =
      ∑ j ∈ Finset.range d, if l ≤ j then a l j else 0 := by
    intro l hl
    rw [Finset.mem_range] at hl
    obtain ⟨e, rfl⟩ := Nat.exists_eq_add_of_le (Nat.le_of_lt hl)
    rw [Finset.sum_range_add (f := fun j => if l ≤ j then a l j else 0), Nat.add_sub_cancel_left]
    have : ∑ j ∈ Finset.range l, (if l ≤ j then a l j else 0) = 0 :=
      Finset.sum_eq_zero fun j hj => if_neg (by rw [Finset.mem_range] at hj; omega)
    rw [this, zero_add]
    exact Finset.sum_congr rfl fun k _ => by rw [if_pos (by omega)]
  rw [Finset.sum_congr rfl h1, Finset.sum_comm]
  refine Finset.sum_congr rfl fun j hj => ?_
  rw [Finset.mem_range] at hj
  symm
  refine Finset.sum_subset_zero_on_sdiff ?_ ?_ ?_
  · intro l hl
    rw [Finset.mem_range] at *
    omega
  · intro l hl
    rw [Finset.mem_sdiff, Finset.mem_range, Finset.mem_range] at hl
    rw [if_neg (by omega)]
  · intro l hl
    rw [Finset.mem_range] at hl
    rw [if_pos (by omega)]

/-- The vectors read off the polynomials. -/
noncomputable def xv (Z1 : K[X]) (d : ℕ) (k : ℕ) : K := if k < d then Z1.coeff (d - 1 - k) else 0

theorem poly_coeff (w : ℕ → K) (d q : ℕ) : (∑ i ∈ Finset.range d, C (w i) * X ^ i).coeff q = if q < d then w q else 0 := by
  rw [finsetSum_coeff]
  split_ifs with h
  · rw [Finset.sum_eq_single q]
    · rw [coeff_C_mul, coeff_X_pow, if_pos rfl, mul_one]
    · intro i _ hne
      rw [coeff_C_mul, coeff_X_pow, if_neg (Ne.symm hne), mul_zero]
    · intro h'
      exact absurd (Finset.mem_range.mpr h) h'
  · refine Finset.sum_eq_zero fun i hi => ?_
    rw [Finset.mem_range] at hi
    rw [coeff_C_mul, coeff_X_pow, if_neg (by omega), mul_zero]

theorem V_coeff (w : ℕ → K) (d q : ℕ) (hq : q < d) :
    (mirror (∑ i ∈ Finset.range d, C (w i) * X ^ i) d).coeff q = w (d - 1 - q) := by
  rw [mirror_coeff, if_pos hq, poly_coeff, if_pos (by omega)]

theorem solve_coeff {Z1 Z2 : K[X]} {d : ℕ} (h1 : ∀ i, d ≤ i → Z1.coeff i = 0) (h2 : ∀ i, d ≤ i → Z2.coeff i = 0)
    (w : ℕ → K) (i : ℕ) (hi : i < d) : (mirror (solve Z1 Z2 d w) d).coeff i =
      (Z1.coeff 0)⁻¹ * ∑ j ∈ Finset.range d, gs (xv Z1 d) Z2.coeff i j * w j := by
  rw [mirror_coeff, if_pos hi]
  unfold solve
  simp only
  rw [coeff_C_mul, coeff_add, coeff_neg, mullow_coeff, if_pos (by omega), mullow_coeff, if_pos (by omega)]
  congr 1
  set V := mirror (∑ i ∈ Finset.range d, C (w i) * X ^ i) d
  have hV : ∀ q, q < d → V.coeff q = w (d - 1 - q) := V_coeff w d
  have e1 : (Z1 * mirror (mullow Z2 V d) d).coeff (d - 1 - i) =
      ∑ l ∈ Finset.range d, ∑ k ∈ Finset.range (d - l), xv Z1 d (i + l) * Z2.coeff (l + k - l) * w (l + k) := by
    rw [coeff_mul_range']
    refine Finset.sum_subset_zero_on_sdiff ?_ ?_ ?_
    · intro l hl
      rw [Finset.mem_range] at *
      omega
    · intro l hl
      rw [Finset.mem_sdiff, Finset.mem_range, Finset.mem_range] at hl
      refine Finset.sum_eq_zero fun k _ => ?_
      rw [xv, if_neg (by omega), zero_mul, zero_mul]
    · intro l hl
      rw [Finset.mem_range] at hl
      rw [mirror_coeff, if_pos (by omega), mullow_coeff, if_pos (by omega), coeff_mul_range, Finset.mul_sum,
        show d - 1 - l + 1 = d - l by omega]
      refine Finset.sum_congr rfl fun k hk => ?_
      rw [Finset.mem_range] at hk
      rw [hV _ (by omega), xv, if_pos (by omega), show d - 1 - (i + l) = d - 1 - i - l by omega,
        show l + k - l = k by omega, show d - 1 - (d - 1 - l - k) = l + k by omega]
      ring
  have e2 : (mirror Z2 (d + 1) * mirror (mullow (mirror Z1 (d + 1)) V d) d).coeff (d - 1 - i) =
      ∑ l ∈ Finset.range d, ∑ k ∈ Finset.range (d - l),
        Z2.coeff (i + l + 1) * (if l < l + k then xv Z1 d (l + k - l - 1) else 0) * w (l + k) := by
    rw [coeff_mul_range']
    refine Finset.sum_subset_zero_on_sdiff ?_ ?_ ?_
    · intro l hl
      rw [Finset.mem_range] at *
      omega
    · intro l hl
      rw [Finset.mem_sdiff, Finset.mem_range, Finset.mem_range] at hl
      refine Finset.sum_eq_zero fun k _ => ?_
      rw [h2 _ (by omega), zero_mul, zero_mul]
    · intro l hl
      rw [Finset.mem_range] at hl
      rw [mirror_coeff, if_pos (by omega), mirror_coeff, if_pos (by omega), mullow_coeff, if_pos (by omega), coeff_mul_range,
        Finset.mul_sum, show d - 1 - l + 1 = d - l by omega, show d + 1 - 1 - (d - 1 - i - l) = i + l + 1 by omega]
      refine Finset.sum_congr rfl fun k hk => ?_
      rw [Finset.mem_range] at hk
      rw [hV _ (by omega), show d - 1 - (d - 1 - l - k) = l + k by omega, mirror_coeff, if_pos (by omega), mul_assoc]
      congr 2
      by_cases hk0 : k = 0
      · rw [if_neg (by omega), h1 _ (by omega)]
      · rw [if_pos (by omega), xv, if_pos (by omega)]
        congr 1
        omega
  rw [e1, e2, tri d (fun l j => xv Z1 d (i + l) * Z2.coeff (j - l) * w j),
    tri d (fun l j => Z2.coeff (i + l + 1) * (if l < j then xv Z1 d (j - l - 1) else 0) * w j), ← sub_eq_add_neg,
    ← Finset.sum_sub_distrib]
  refine Finset.sum_congr rfl fun j _ => ?_
  rw [gs, Finset.sum_mul, ← Finset.sum_sub_distrib]
  exact Finset.sum_congr rfl fun l _ => by ring

/-! ### The two gcd computations -/

theorem rowF {p : List K} {u : ℕ → K} {d : ℕ} (hp : p.length = 2 * d - 1) (hu : ∀ i, i < 2 * d - 1 → p.getD i 0 = u i)
    {f : K[X]} (hf : f.natDegree < d) (t : ℕ) (ht : t < d) :
    (f * rev p).coeff (2 * d - 2 - t) = hmul u d f.coeff t := by
  have := mul_rev_coeff f p u (by rw [hp]; exact hu) t (by rw [hp]; omega)
  rw [hp, act_apply f u t hf, show 2 * d - 1 - 1 - t = 2 * d - 2 - t by omega] at this
  rw [this, hmul]
  exact Finset.sum_congr rfl fun i _ => mul_comm _ _

theorem rowB {p : List K} {u : ℕ → K} {d : ℕ} (hp : p.length = 2 * d - 1) (hu : ∀ i, i < 2 * d - 1 → p.getD i 0 = u i)
    {f : K[X]} (hf : f.natDegree < d) (t : ℕ) (ht : t < d) :
    (f * rev p.reverse).coeff (d - 1 + t) = hmul u d (xv f d) t := by
  have hpr : p.reverse.length = 2 * d - 1 := by rw [List.length_reverse, hp]
  have hrev : ∀ i, i < p.reverse.length → p.reverse.getD i 0 = u (2 * d - 2 - i) := by
    intro i hi
    rw [hpr] at hi
    rw [← hu _ (by omega), List.getD_eq_getElem?_getD, List.getD_eq_getElem?_getD, List.getElem?_reverse (by omega), hp]
    congr 2
  have := mul_rev_coeff f p.reverse (fun i => u (2 * d - 2 - i)) hrev (d - 1 - t) (by rw [hpr]; omega)
  rw [hpr, act_apply f _ _ hf, show 2 * d - 1 - 1 - (d - 1 - t) = d - 1 + t by omega] at this
  rw [this, hmul, ← Finset.sum_range_reflect]
  refine Finset.sum_congr rfl fun i hi => ?_
  rw [Finset.mem_range] at hi
  rw [xv, if_pos hi, mul_comm]
  congr 2
  omega

/-- A remainder of full degree excludes kernel vectors. -/
theorem no_kernel {d : ℕ} (hd : 0 < d) {S : K[X]} {s : St K} (h : BM.Fin (2 * d - 1) S s) (hR : dg s.R1 = (d : Int) - 1)
    {Z : K[X]} (hZd : Z.natDegree < d) (hZ : ∀ t, t < d → (Z * S).coeff (d - 1 + t) = 0) : Z = 0 := by
  by_contra hne
  obtain ⟨U0, U1, e, he, e0, e1, ed⟩ := h.bez
  set P := Z * S with hP
  set r := P %ₘ X ^ (2 * d - 1) with hr
  set g := P /ₘ X ^ (2 * d - 1) with hg
  have hPg : r + X ^ (2 * d - 1) * g = P := modByMonic_add_div _ _
  have hrc : ∀ m, m < 2 * d - 1 → r.coeff m = P.coeff m := by
    intro m hm
    rw [← hPg, coeff_add, coeff_X_pow_mul', if_neg (by omega), add_zero]
  have hrd : dg r < (d - 1 : ℕ) := by
    rw [dg_lt_iff, degree_lt_iff_coeff_zero]
    intro m hm
    by_cases hmn : m < 2 * d - 1
    · rw [hrc m hmn]
      have := hZ (m - (d - 1)) (by omega)
      rwa [show d - 1 + (m - (d - 1)) = m by omega] at this
    · have := degree_modByMonic_lt P (monic_X_pow (2 * d - 1) : (X ^ (2 * d - 1) : K[X]).Monic)
      rw [degree_X_pow, degree_lt_iff_coeff_zero] at this
      exact this m (by omega)
  have hkey : Z * s.R1 - s.V1 * r = X ^ (2 * d - 1) * (Z * U1 + s.V1 * g) := by
    linear_combination -Z * e1 - s.V1 * hPg + s.V1 * hP
  have hR0 : s.R1 ≠ 0 := by
    intro h0
    rw [h0, dg_zero] at hR
    omega
  have hZdg := dg_of_ne hne
  have hVd := h.degV
  have hdL : dg (Z * s.R1 - s.V1 * r) ≤ 2 * (d : Int) - 2 := by
    apply dg_sub_le
    · rw [dg_mul hne hR0]
      omega
    · by_cases hz : r = 0
      · rw [hz, mul_zero, dg_zero]
        omega
      · rw [dg_mul h.v1 hz]
        omega
  have hzero : Z * U1 + s.V1 * g = 0 := by
    by_contra hnz
    rw [hkey, dg_mul (pow_ne_zero _ X_ne_zero) hnz, dg_X_pow, dg_of_ne hnz] at hdL
    omega
  have hL : Z * s.R1 = s.V1 * r := by
    rw [hzero, mul_zero, sub_eq_zero] at hkey
    exact hkey
  have hcop : IsCoprime s.V1 U1 := ⟨e * U0, -(e * s.V0), by linear_combination e * ed + he⟩
  obtain ⟨q, hq⟩ : s.V1 ∣ Z := by
    apply hcop.dvd_of_dvd_mul_right
    exact ⟨-g, by linear_combination hzero⟩
  have hqne : q ≠ 0 := by
    rintro rfl
    exact hne (by rw [hq, mul_zero])
  have hrq : r = q * s.R1 := by
    apply mul_left_cancel₀ h.v1
    rw [← hL, hq]
    ring
  rw [hrq, dg_mul hqne hR0, dg_of_ne hqne] at hrd
  omega

/-- The coefficients of `V1 * S`. -/
theorem V1S_coeff {n : ℕ} {S : K[X]} {s : St K} (h : BM.Fin n S s) {m : ℕ} (hm : m < n) :
    (s.V1 * S).coeff m = s.R1.coeff m := by
  obtain ⟨U0, U1, e, he, e0, e1, ed⟩ := h.bez
  rw [← e1, coeff_add, mul_comm U1, coeff_X_pow_mul', if_neg (by omega), zero_add]

theorem natDegree_V1 {d : ℕ} (hd : 0 < d) {S : K[X]} {s : St K} (h : BM.Fin (2 * d - 1) S s) : s.V1.natDegree < d := by
  have := h.degV
  rw [dg_of_ne h.v1] at this
  omega

theorem regular_of_full {p : List K} {u : ℕ → K} {d : ℕ} (hd : 0 < d) (hp : p.length = 2 * d - 1)
    (hu : ∀ i, i < 2 * d - 1 → p.getD i 0 = u i) {s : St K} (h : BM.Fin (2 * d - 1) (rev p.reverse) s)
    (hR : dg s.R1 = (d : Int) - 1) : Regular u d := by
  intro v hv
  set Z : K[X] := mirror (∑ i ∈ Finset.range d, C (v i) * X ^ i) d with hZ
  have hc : ∀ q, q < d → Z.coeff q = v (d - 1 - q) := V_coeff v d
  have hZd : Z.natDegree < d := by
    by_cases h0 : Z = 0
    · rw [h0, natDegree_zero]
      exact hd
    · rw [natDegree_lt_iff_degree_lt h0, degree_lt_iff_coeff_zero]
      intro m hm
      rw [hZ, mirror_coeff, if_neg (by omega)]
  have hZ0 : Z = 0 := by
    refine no_kernel hd h hR hZd fun t ht => ?_
    rw [rowB hp hu hZd t ht, ← hv t ht]
    refine hmul_congr (fun i hi => ?_) t
    rw [xv, if_pos hi, hc _ (by omega)]
    congr 1
    omega
  intro i hi
  have := hc (d - 1 - i) (by omega)
  rw [hZ0, coeff_zero, show d - 1 - (d - 1 - i) = i by omega] at this
  exact this.symm

/-- Outcome of `invert_hankel_matrix`. -/
def InvSpec (u : ℕ → K) (d : ℕ) : Inv K → Prop
  | .singular => 1 < d ∧ ¬ Regular u d
  | .ub => d = 1 ∧ u 0 = 0
  | .other => Regular u d ∧ ∃ x : ℕ → K, (∀ t, t < d → hmul u d x t = if t = 0 then 1 else 0) ∧ x (d - 1) = 0
  | .ok Z1 Z2 => Regular u d ∧ (∀ i, d ≤ i → Z1.coeff i = 0) ∧ (∀ i, d ≤ i → Z2.coeff i = 0) ∧
      (∀ t, t < d → hmul u d (xv Z1 d) t = if t = 0 then 1 else 0) ∧
      (∀ t, t < d → hmul u d Z2.coeff t = if t = d - 1 then 1 else 0) ∧ Z1.coeff 0 = Z2.coeff 0 ∧ Z1.coeff 0 ≠ 0

theorem normV_first {p : List K} {u : ℕ → K} {d : ℕ} (hd : 0 < d) (hp : p.length = 2 * d - 1)
    (hu : ∀ i, i < 2 * d - 1 → p.getD i 0 = u i) {s : St K} (h : BM.Fin (2 * d - 1) (rev p.reverse) s)
    (hR : dg s.R1 = (d : Int) - 1) (t : ℕ) (ht : t < d) :
    hmul u d (xv (normV s) d) t = if t = 0 then 1 else 0 := by
  have hR0 : s.R1 ≠ 0 := by
    intro h0
    rw [h0, dg_zero] at hR
    omega
  have hnd : s.R1.natDegree = d - 1 := by
    rw [dg_of_ne hR0] at hR
    omega
  have hlc : s.R1.leadingCoeff ≠ 0 := leadingCoeff_ne_zero.mpr hR0
  have hV := natDegree_V1 hd h
  have hdeg : (normV s).natDegree < d := by rw [normV, natDegree_C_mul (inv_ne_zero hlc)]; exact hV
  rw [← rowB hp hu hdeg t ht, normV, mul_assoc, coeff_C_mul, V1S_coeff h (by omega)]
  split_ifs with h0
  · rw [h0, Nat.add_zero, ← hnd]
    exact inv_mul_cancel₀ hlc
  · rw [coeff_eq_zero_of_natDegree_lt (by omega), mul_zero]

theorem normV_second {p : List K} {u : ℕ → K} {d : ℕ} (hd : 0 < d) (hp : p.length = 2 * d - 1)
    (hu : ∀ i, i < 2 * d - 1 → p.getD i 0 = u i) {s : St K} (h : BM.Fin (2 * d - 1) (rev p) s)
    (hR : dg s.R1 = (d : Int) - 1) (t : ℕ) (ht : t < d) :
    hmul u d (normV s).coeff t = if t = d - 1 then 1 else 0 := by
  have hR0 : s.R1 ≠ 0 := by
    intro h0
    rw [h0, dg_zero] at hR
    omega
  have hnd : s.R1.natDegree = d - 1 := by
    rw [dg_of_ne hR0] at hR
    omega
  have hlc : s.R1.leadingCoeff ≠ 0 := leadingCoeff_ne_zero.mpr hR0
  have hV := natDegree_V1 hd h
  have hdeg : (normV s).natDegree < d := by rw [normV, natDegree_C_mul (inv_ne_zero hlc)]; exact hV
  rw [← rowF hp hu hdeg t ht, normV, mul_assoc, coeff_C_mul, V1S_coeff h (by omega)]
  split_ifs with h0
  · rw [h0, show 2 * d - 2 - (d - 1) = d - 1 by omega, ← hnd]
    exact inv_mul_cancel₀ hlc
  · rw [coeff_eq_zero_of_natDegree_lt (by omega), mul_zero]

theorem invert_spec {hg : K[X] → K[X] → HM K} (hhg : HgcdOk hg) {pts : List K} {u : ℕ → K} {d : ℕ} (hd : 0 < d)
    (hl : 2 * d - 1 ≤ pts.length) (hu0 : ∀ i, i < 2 * d - 1 → pts.getD i 0 = u i) : InvSpec u d (invert hg pts d) := by
  have hp : (pts.take (2 * d - 1)).length = 2 * d - 1 := by rw [List.length_take]; omega
  have hu : ∀ i, i < 2 * d - 1 → (pts.take (2 * d - 1)).getD i 0 = u i := by
    intro i hi
    rw [← hu0 i hi, List.getD_eq_getElem?_getD, List.getD_eq_getElem?_getD, List.getElem?_take_of_lt hi]
  unfold invert
  simp only
  set p := pts.take (2 * d - 1)
  have h1 := emgcd_fin hhg p.reverse
  have h2 := emgcd_fin hhg p
  rw [List.length_reverse, hp] at h1
  rw [hp] at h2
  set s := emgcd hg St.init 0 p.reverse
  set s2 := emgcd hg St.init 0 p
  have hd1 := h1.degR
  have hd2 := h2.degR
  split_ifs with c1 c2 c3 c4
  · -- singular
    refine ⟨c1.2, fun hreg => ?_⟩
    have hV := natDegree_V1 hd h1
    have hz : ∀ t, t < d → hmul u d (xv s.V1 d) t = 0 := by
      intro t ht
      rw [← rowB hp hu hV t ht, V1S_coeff h1 (by omega)]
      have := c1.1
      have h3 : dg s.R1 < (d - 1 : ℕ) := by omega
      rw [dg_lt_iff, degree_lt_iff_coeff_zero] at h3
      exact h3 _ (by omega)
    have hall := hreg _ hz
    apply h1.v1
    ext m
    rw [coeff_zero]
    by_cases hm : m < d
    · have := hall (d - 1 - m) (by omega)
      rwa [xv, if_pos (by omega), show d - 1 - (d - 1 - m) = m by omega] at this
    · exact coeff_eq_zero_of_natDegree_lt (by omega)
  · -- zero remainder
    have hd1 : d = 1 := by
      rw [c3, dg_zero] at c1
      omega
    refine ⟨hd1, ?_⟩
    have := V1S_coeff h1 (m := 0) (by omega)
    rw [c3, coeff_zero, mul_coeff_zero] at this
    have h3 := (mul_eq_zero.mp this).resolve_left c2
    rw [rev_coeff _ _ (by rw [List.length_reverse, hp]; omega), List.length_reverse, hp] at h3
    subst hd1
    rw [← hu 0 (by omega)]
    obtain ⟨a, ha⟩ := List.length_eq_one_iff.mp hp
    have ha : p = [a] := ha
    rw [ha] at h3 ⊢
    exact h3
  · -- second remainder
    have hR1 : dg s.R1 = (d : Int) - 1 := by
      rw [dg_of_ne c3] at c1 hd1 ⊢
      omega
    exfalso
    have hreg := regular_of_full hd hp hu h1 hR1
    have hV := natDegree_V1 hd h2
    have hall := hreg s2.V1.coeff (fun t ht => by
      rw [← rowF hp hu hV t ht, V1S_coeff h2 (by omega), c4, coeff_zero])
    apply h2.v1
    ext m
    rw [coeff_zero]
    by_cases hm : m < d
    · exact hall m hm
    · exact coeff_eq_zero_of_natDegree_lt (by omega)
  · -- regular
    have hR1 : dg s.R1 = (d : Int) - 1 := by
      rw [dg_of_ne c3] at c1 hd1 ⊢
      omega
    have hreg := regular_of_full hd hp hu h1 hR1
    have hV2 := natDegree_V1 hd h2
    have hR2 : dg s2.R1 = (d : Int) - 1 := by
      by_contra hne
      have hlt : dg s2.R1 < (d - 1 : ℕ) := by omega
      rw [dg_lt_iff, degree_lt_iff_coeff_zero] at hlt
      have hall := hreg s2.V1.coeff (fun t ht => by
        rw [← rowF hp hu hV2 t ht, V1S_coeff h2 (by omega)]
        exact hlt _ (by omega))
      apply h2.v1
      ext m
      rw [coeff_zero]
      by_cases hm : m < d
      · exact hall m hm
      · exact coeff_eq_zero_of_natDegree_lt (by omega)
    have hV1 := natDegree_V1 hd h1
    have hx := normV_first hd hp hu h1 hR1
    have hy := normV_second hd hp hu h2 hR2
    refine ⟨hreg, ?_, ?_, hx, hy, ?_, ?_⟩
    · intro i hi
      rw [normV, coeff_C_mul, coeff_eq_zero_of_natDegree_lt (by omega), mul_zero]
    · intro i hi
      rw [normV, coeff_C_mul, coeff_eq_zero_of_natDegree_lt (by omega), mul_zero]
    · -- symmetry of the inverse
      have h3 := sum_comm_apply u d (xv (normV s) d) (normV s2).coeff
      rw [Finset.sum_eq_single 0, Finset.sum_eq_single (d - 1)] at h3
      · rw [hx 0 hd, hy (d - 1) (by omega), if_pos rfl, if_pos rfl, one_mul, mul_one, xv, if_pos (by omega),
          Nat.sub_self] at h3
        exact h3.symm
      · intro b hb hne
        rw [hy b (Finset.mem_range.mp hb), if_neg hne, mul_zero]
      · intro h
        exact absurd (Finset.mem_range.mpr (by omega)) h
      · intro b hb hne
        rw [hx b (Finset.mem_range.mp hb), if_neg hne, zero_mul]
      · intro h
        exact absurd (Finset.mem_range.mpr hd) h
    · rw [normV, coeff_C_mul]
      exact mul_ne_zero (inv_ne_zero (leadingCoeff_ne_zero.mpr c3)) c2
  · -- last entry zero
    push Not at c2
    have hR1 : dg s.R1 = (d : Int) - 1 := by
      by_cases hd' : 1 < d
      · omega
      · have hd1' : d = 1 := by omega
        exfalso
        have hV1 := natDegree_V1 hd h1
        apply h1.v1
        rw [eq_C_of_natDegree_eq_zero (by omega : s.V1.natDegree = 0), c2, C_0]
    refine ⟨regular_of_full hd hp hu h1 hR1, xv (normV s) d, normV_first hd hp hu h1 hR1, ?_⟩
    rw [xv, if_pos (by omega), Nat.sub_self, normV, coeff_C_mul, c2, mul_zero]

/-- The solution read off the result of `solve_hankel`. -/
theorem solve_spec {u : ℕ → K} {d : ℕ} (hd : 0 < d) {Z1 Z2 : K[X]} (h : InvSpec u d (.ok Z1 Z2)) (w : ℕ → K) (t : ℕ)
    (ht : t < d) : hmul u d (mirror (solve Z1 Z2 d w) d).coeff t = w t := by
  obtain ⟨hreg, h1, h2, hx, hy, h00, hne⟩ := h
  rw [hmul_congr (fun i hi => solve_coeff h1 h2 w i hi), h00]
  refine gs_solves hd hreg hx hy ?_ h2 ?_ ?_ w t ht
  · intro i hi
    rw [xv, if_neg (by omega)]
  · rw [xv, if_pos (by omega), Nat.sub_self, h00]
  · rw [← h00]
    exact hne

end Verif.Hankel
