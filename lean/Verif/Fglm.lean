import Verif.Hankel
import Mathlib.LinearAlgebra.Basis.Basic
import Mathlib.LinearAlgebra.Dimension.Finrank
import Mathlib.LinearAlgebra.FiniteDimensional.Defs
import Mathlib.FieldTheory.Minpoly.Field
import Mathlib.FieldTheory.Minpoly.Finite
import Mathlib.LinearAlgebra.FiniteDimensional.Lemmas
import Mathlib.RingTheory.Algebraic.Integral
import Mathlib.RingTheory.PowerBasis

/-! Model of the sparse FGLM step, src/fglm/fglm_core.c: scalar sequence (485-515, 765-853, 1464-1483),
parametrization in shape position (1045-1110) and in the other cases (1117-1190, 1231-1361). -/

namespace Verif.Fglm

open Polynomial Verif.BM Verif.Spec Verif.Hankel

variable {K : Type*} [Field K]

/-- `sp_matfglm_t`: rows that are unit vectors (`triv_idx`, `triv_pos`) and dense rows (`dense_idx`,
`dense_mat`). -/
structure Mat (K : Type*) where
  ncols : ℕ
  triv : List (ℕ × ℕ)
  dense : List (ℕ × (ℕ → K))

/-- `sparse_mat_fglm_mult_vec`, fglm_core.c 485-515; `old` is the former content of the result.  The product of
the dense part is exact (C03), it is the sum here. -/
def Mat.mulVec (M : Mat K) (vec old : ℕ → K) : ℕ → K :=
  M.dense.foldl (fun r q => Function.update r q.1 (∑ k ∈ Finset.range M.ncols, q.2 k * vec k))
    (M.triv.foldl (fun r q => Function.update r q.1 (vec q.2)) old)

/-- The vectors `vecinit`, `vvec` after `i` iterations of the loops of `generate_sequence_verif`,
fglm_core.c 787-845; the two buffers are exchanged in each iteration. -/
def Mat.iter (M : Mat K) (vecinit vvec : ℕ → K) : ℕ → (ℕ → K) × (ℕ → K)
  | 0 => (vecinit, vvec)
  | i + 1 => let s := Mat.iter M vecinit vvec i; (M.mulVec s.1 s.2, s.1)

/-- Entry `res[j + i * block_size]` of the table for `j < block_size`, fglm_core.c 1476-1479, 800-804, 832:
the first entry of the vector for `j = 0` (the columns `j > 0` are filled for `i < ncols`). -/
def Mat.res (M : Mat K) (vecinit vvec : ℕ → K) (i j : ℕ) : K :=
  (M.iter vecinit vvec i).1 (if j = 0 then 0 else j + 1)

/-- Entry `res[j + (i + ncols) * block_size]`, `j > 0`, fglm_core.c 783-784, 808-809: the value at the square of the
variable, whose index is `sq`. -/
def Mat.resSq (M : Mat K) (vecinit vvec : ℕ → K) (i sq : ℕ) : K := (M.iter vecinit vvec i).1 sq

/-- The points, fglm_core.c 849-851. -/
def Mat.pts (M : Mat K) (vecinit vvec : ℕ → K) : List K := (List.range (2 * M.ncols)).map fun i => M.res vecinit vvec i 0

/-- The coordinate of a variable that is not linear, fglm_core.c 1073-1081. -/
noncomputable def coordShape (elim Z1 Z2 : K[X]) (d : ℕ) (w : ℕ → K) : K[X] := mirror (-solve Z1 Z2 d w) d % elim

/-- The polynomial `R0` of the table, fglm_core.c 1134-1149 and 1169-1181; the sequence `w` is
`res[. * block_size + ncoord]`, with `lambda` times another column added in the verification. -/
noncomputable def tablePoly (V : K[X]) (w : ℕ → K) : K[X] :=
  (∑ i ∈ Finset.range V.natDegree, C (w (V.natDegree - i - 1)) * X ^ i) * V /ₘ X ^ V.natDegree

/-- What FLINT's `nmod_poly_xgcd` returns for `(elim, Z1)`: the monic gcd and the cofactors. -/
structure XgcdOk (xg : K[X] → K[X] → K[X] × K[X] × K[X]) : Prop where
  bez : ∀ a b, (xg a b).2.1 * a + (xg a b).2.2 * b = (xg a b).1
  left : ∀ a b, (xg a b).1 ∣ a
  right : ∀ a b, (xg a b).1 ∣ b
  monic : ∀ a b, (a ≠ 0 ∨ b ≠ 0) → (xg a b).1.Monic

/-- `invert_table_polynomial`, fglm_core.c 1117-1155: the cofactor `Z2` if the degree of the gcd is zero. -/
noncomputable def invTable (xg : K[X] → K[X] → K[X] × K[X] × K[X]) (elim V : K[X]) (w : ℕ → K) : Option K[X] := by
  classical
  exact
    let r := xg elim (tablePoly V w)
    if dg r.1 = 0 then some r.2.2 else none

/-- `divide_table_polynomials`, fglm_core.c 1158-1190, negated as in 1259-1261. -/
noncomputable def coordTable (elim V Z2 : K[X]) (w : ℕ → K) : K[X] := -(tablePoly V w * Z2 % elim)

/-! ### The scalar sequence -/

variable {A : Type*} [CommRing A] [Algebra K A]

/-- The matrix represents the multiplication by `x` in the algebra `A` with the basis `b`. -/
structure IsMulMat (M : Mat K) (b : ℕ → A) (x : A) : Prop where
  triv : ∀ q ∈ M.triv, q.2 < M.ncols ∧ x * b q.1 = b q.2
  dense : ∀ q ∈ M.dense, x * b q.1 = ∑ k ∈ Finset.range M.ncols, q.2 k • b k
  cover : ∀ i, i < M.ncols → i ∈ M.triv.map Prod.fst ∨ i ∈ M.dense.map Prod.fst

omit [Field K] in
theorem foldl_update {α : Type*} (g : α → ℕ) (f : α → K) (P : ℕ → K → Prop) (l : List α) (hf : ∀ q ∈ l, P (g q) (f q)) (i : ℕ)
    (r : ℕ → K) (hr : i ∈ l.map g ∨ P i (r i)) : P i (l.foldl (fun r q => Function.update r (g q) (f q)) r i) := by
  induction l generalizing r with
  | nil => simpa using hr
  | cons q l ih =>
    rw [List.foldl_cons]
    apply ih (fun q' hq' => hf q' (by simp [hq']))
    by_cases hi : i = g q
    · right
      rw [hi, Function.update_self]
      exact hf q (by simp)
    · rcases hr with hr | hr
      · rw [List.map_cons, List.mem_cons] at hr
        exact Or.inl (hr.resolve_left hi)
      · right
        rw [Function.update_of_ne hi]
        exact hr

theorem mulVec_spec {M : Mat K} {b : ℕ → A} {x : A} (h : IsMulMat M b x) (l : A →ₗ[K] K) {a : A} {vec : ℕ → K}
    (hv : ∀ k, k < M.ncols → vec k = l (a * b k)) (old : ℕ → K) (i : ℕ) (hi : i < M.ncols) :
    M.mulVec vec old i = l (x * a * b i) := by
  unfold Mat.mulVec
  refine foldl_update (Prod.fst) (fun q : ℕ × (ℕ → K) => ∑ k ∈ Finset.range M.ncols, q.2 k * vec k)
    (fun i c => c = l (x * a * b i)) M.dense ?_ i _ ?_
  · intro q hq
    show _ = l (x * a * b q.1)
    rw [show x * a * b q.1 = a * (x * b q.1) by ring, h.dense q hq, Finset.mul_sum, map_sum]
    refine Finset.sum_congr rfl fun k hk => ?_
    rw [hv k (Finset.mem_range.mp hk), mul_smul_comm, map_smul, smul_eq_mul]
  · rcases h.cover i hi with hc | hc
    · right
      refine foldl_update (Prod.fst) (fun q : ℕ × ℕ => vec q.2) (fun i c => c = l (x * a * b i)) M.triv ?_ i _ (Or.inl hc)
      intro q hq
      show _ = l (x * a * b q.1)
      rw [show x * a * b q.1 = a * (x * b q.1) by ring, (h.triv q hq).2, hv _ (h.triv q hq).1]
    · exact Or.inl hc

theorem iter_spec {M : Mat K} {b : ℕ → A} {x : A} (h : IsMulMat M b x) (l : A →ₗ[K] K) {vecinit : ℕ → K}
    (hv : ∀ k, k < M.ncols → vecinit k = l (b k)) (vvec : ℕ → K) (i k : ℕ) (hk : k < M.ncols) :
    (M.iter vecinit vvec i).1 k = l (x ^ i * b k) := by
  induction i generalizing k with
  | zero => rw [pow_zero, one_mul]; exact hv k hk
  | succ i ih =>
    rw [Mat.iter, pow_succ']
    exact mulVec_spec h l (fun k hk => ih k hk) _ k hk

/-! ### Sequences of a linear form -/

/-- The sequence of values at `x^i a`. -/
def lseq (l : A →ₗ[K] K) (x a : A) (i : ℕ) : K := l (x ^ i * a)

theorem act_lseq (l : A →ₗ[K] K) (x a : A) (f : K[X]) : act f (lseq l x a) = lseq l x (aeval x f * a) := by
  funext i
  rw [act_apply f _ i (Nat.lt_succ_self _), lseq, aeval_eq_sum_range, Finset.sum_mul, Finset.mul_sum, map_sum]
  refine Finset.sum_congr rfl fun j _ => ?_
  rw [lseq, smul_mul_assoc, mul_smul_comm, map_smul, smul_eq_mul, pow_add, mul_assoc]

theorem annih_of_aeval {l : A →ₗ[K] K} {x : A} (a : A) {f : K[X]} (h : aeval x f = 0) : Annihilates f (lseq l x a) := by
  rw [annihilates_iff, act_lseq, h, zero_mul]
  funext i
  rw [lseq, mul_zero, map_zero]
  rfl

/-- A minimal polynomial of degree `d` makes the Hankel matrix regular. -/
theorem regular_of_minpoly {u : ℕ → K} {f : K[X]} (h : IsMinPoly f u) : Regular u f.natDegree := by
  intro v hv
  set Z : K[X] := ∑ i ∈ Finset.range f.natDegree, C (v i) * X ^ i with hZ
  have hc : ∀ q, Z.coeff q = if q < f.natDegree then v q else 0 := poly_coeff v f.natDegree
  have hzero : Z = 0 := by
    by_contra hne
    have hdeg : Z.natDegree < f.natDegree := by
      rw [natDegree_lt_iff_degree_lt hne, degree_lt_iff_coeff_zero]
      intro m hm
      rw [hc, if_neg (by omega)]
    have hann : act Z u = 0 := by
      apply act_zero_of_start h.1.ne_zero
      · rw [← act_mul, mul_comm, act_mul, (annihilates_iff _ _).mp h.2.1, map_zero]
      · intro i hi
        rw [act_apply Z u i hdeg, ← hv i hi, hmul]
        refine Finset.sum_congr rfl fun j hj => ?_
        rw [hc, if_pos (Finset.mem_range.mp hj), mul_comm]
    have := natDegree_le_of_dvd (h.2.2 Z ((annihilates_iff _ _).mpr hann)) hne
    omega
  intro i hi
  have := hc i
  rw [hzero, coeff_zero, if_pos hi] at this
  exact this.symm

/-! ### Numerators -/

theorem coeff_divX (f : K[X]) (d m : ℕ) : (f /ₘ X ^ d).coeff m = f.coeff (d + m) := by
  have h := modByMonic_add_div f (X ^ d : K[X])
  have h2 := degree_modByMonic_lt f (monic_X_pow d : (X ^ d : K[X]).Monic)
  rw [degree_X_pow, degree_lt_iff_coeff_zero] at h2
  conv_rhs => rw [← h]
  rw [coeff_add, h2 _ (by omega), zero_add, coeff_X_pow_mul', if_pos (by omega), Nat.add_sub_cancel_left]

theorem tablePoly_coeff (V : K[X]) (w : ℕ → K) (m : ℕ) :
    (tablePoly V w).coeff m = ∑ j ∈ Finset.range (V.natDegree + 1), if m < j then V.coeff j * w (j - m - 1) else 0 := by
  unfold tablePoly
  rw [coeff_divX, coeff_mul_range']
  symm
  apply Finset.sum_subset_zero_on_sdiff
  · intro j hj
    rw [Finset.mem_range] at *
    omega
  · intro j hj
    rw [Finset.mem_sdiff, Finset.mem_range, Finset.mem_range] at hj
    rw [coeff_eq_zero_of_natDegree_lt (p := V) (by omega), mul_zero]
  · intro j hj
    rw [Finset.mem_range] at hj
    rw [poly_coeff (fun i => w (V.natDegree - i - 1))]
    split_ifs with h1 h2 h2
    · rw [mul_comm]
      congr 2
      omega
    · omega
    · omega
    · rw [zero_mul]

theorem tablePoly_add (V : K[X]) (v w : ℕ → K) : tablePoly V (v + w) = tablePoly V v + tablePoly V w := by
  ext m
  rw [coeff_add, tablePoly_coeff, tablePoly_coeff, tablePoly_coeff, ← Finset.sum_add_distrib]
  refine Finset.sum_congr rfl fun j _ => ?_
  split_ifs
  · rw [Pi.add_apply, mul_add]
  · rw [add_zero]

theorem tablePoly_smul (V : K[X]) (c : K) (w : ℕ → K) : tablePoly V (c • w) = C c * tablePoly V w := by
  ext m
  rw [coeff_C_mul, tablePoly_coeff, tablePoly_coeff, Finset.mul_sum]
  refine Finset.sum_congr rfl fun j _ => ?_
  split_ifs
  · rw [Pi.smul_apply, smul_eq_mul]
    ring
  · rw [mul_zero]

theorem tablePoly_shift {V : K[X]} {w : ℕ → K} (h : Annihilates V w) :
    tablePoly V (shift w) = X * tablePoly V w - C (w 0) * V := by
  ext m
  rw [coeff_sub, coeff_C_mul]
  cases m with
  | zero =>
    rw [coeff_X_mul_zero, tablePoly_coeff, zero_sub]
    have h0 := h 0
    rw [Finset.sum_range_succ'] at h0
    rw [Finset.sum_range_succ']
    simp only [Nat.lt_irrefl, if_false, add_zero, Nat.zero_add, Nat.zero_lt_succ, if_true] at h0 ⊢
    rw [eq_neg_iff_add_eq_zero, mul_comm (w 0), ← h0]
    congr 1
  | succ m =>
    rw [coeff_X_mul, tablePoly_coeff, tablePoly_coeff]
    have h1 : ∑ j ∈ Finset.range (V.natDegree + 1), (if m < j then V.coeff j * w (j - m - 1) else 0) -
        ∑ j ∈ Finset.range (V.natDegree + 1), (if m + 1 < j then V.coeff j * (shift w) (j - (m + 1) - 1) else 0) =
        ∑ j ∈ Finset.range (V.natDegree + 1), if j = m + 1 then V.coeff j * w 0 else 0 := by
      rw [← Finset.sum_sub_distrib]
      refine Finset.sum_congr rfl fun j _ => ?_
      have hsh : ∀ i, (shift w : ℕ → K) i = w (i + 1) := fun i => rfl
      by_cases h1 : m + 1 < j
      · rw [if_pos (by omega), if_pos h1, if_neg (by omega), hsh, show j - (m + 1) - 1 + 1 = j - m - 1 by omega, sub_self]
      · rw [if_neg h1, sub_zero]
        by_cases h2 : j = m + 1
        · rw [if_pos (by omega), if_pos h2, show j - m - 1 = 0 by omega]
        · rw [if_neg (by omega), if_neg h2]
    rw [Finset.sum_ite_eq' (Finset.range (V.natDegree + 1)) (m + 1) (fun j => V.coeff j * w 0)] at h1
    have h2 : (if m + 1 ∈ Finset.range (V.natDegree + 1) then V.coeff (m + 1) * w 0 else 0) = w 0 * V.coeff (m + 1) := by
      split_ifs with h3
      · ring
      · rw [Finset.mem_range] at h3
        rw [coeff_eq_zero_of_natDegree_lt (by omega), mul_zero]
    rw [h2] at h1
    linear_combination -h1

theorem annih_act {V : K[X]} {w : ℕ → K} (h : Annihilates V w) (q : K[X]) : Annihilates V (act q w) := by
  rw [annihilates_iff] at *
  rw [← act_mul, mul_comm, act_mul, h, map_zero]

theorem act_C (c : K) (w : ℕ → K) : act (C c) w = c • w := by
  rw [act, aeval_C]
  rfl

theorem act_X (w : ℕ → K) : act X w = shift w := by
  rw [act, aeval_X]

/-- The numerator of a shifted sequence. -/
theorem tablePoly_act {V : K[X]} {w : ℕ → K} (h : Annihilates V w) (q : K[X]) :
    V ∣ tablePoly V (act q w) - q * tablePoly V w := by
  induction q using Polynomial.induction_on with
  | C a =>
    rw [act_C, tablePoly_smul, sub_self]
    exact dvd_zero _
  | add p q hp hq =>
    rw [act_add, tablePoly_add, add_mul, add_sub_add_comm]
    exact dvd_add hp hq
  | monomial n a ih =>
    have e : C a * X ^ (n + 1) = X * (C a * X ^ n) := by ring
    rw [e, act_mul, act_X, tablePoly_shift (annih_act h _), mul_assoc]
    have : X * tablePoly V (act (C a * X ^ n) w) - C (act (C a * X ^ n) w 0) * V - X * (C a * X ^ n * tablePoly V w) =
        X * (tablePoly V (act (C a * X ^ n) w) - C a * X ^ n * tablePoly V w) - C (act (C a * X ^ n) w 0) * V := by ring
    rw [this]
    exact dvd_sub (dvd_mul_of_dvd_right ih _) (dvd_mul_left _ _)

theorem tablePoly_degree (V : K[X]) (w : ℕ → K) : (tablePoly V w).degree < V.natDegree ∨ tablePoly V w = 0 := by
  left
  rw [degree_lt_iff_coeff_zero]
  intro m hm
  rw [tablePoly_coeff]
  refine Finset.sum_eq_zero fun j hj => ?_
  rw [Finset.mem_range] at hj
  rw [if_neg (by omega)]

theorem tablePoly_inj {V : K[X]} (hV : V ≠ 0) {w : ℕ → K} (h : Annihilates V w) (h0 : tablePoly V w = 0) : w = 0 := by
  apply act_zero_of_start hV ((annihilates_iff _ _).mp h)
  intro i
  induction i using Nat.strong_induction_on with
  | _ i ih =>
    intro hi
    have h1 := tablePoly_coeff V w (V.natDegree - 1 - i)
    rw [h0, coeff_zero, Finset.sum_range_succ, Finset.sum_eq_zero, zero_add, if_pos (by omega),
      show V.natDegree - (V.natDegree - 1 - i) - 1 = i by omega] at h1
    · exact (mul_eq_zero.mp h1.symm).resolve_left (leadingCoeff_ne_zero.mpr hV)
    · intro j hj
      rw [Finset.mem_range] at hj
      split_ifs with h2
      · rw [ih _ (by omega) (by omega), mul_zero]
      · rfl

/-- The numerator of the scalar sequence is coprime to the minimal polynomial. -/
theorem tablePoly_coprime {V : K[X]} {u : ℕ → K} (h : IsMinPoly V u) : IsCoprime V (tablePoly V u) := by
  have hV0 := h.1.ne_zero
  classical
  rw [← EuclideanDomain.gcd_isUnit_iff]
  set g := EuclideanDomain.gcd V (tablePoly V u) with hg
  obtain ⟨q, hq⟩ := EuclideanDomain.gcd_dvd_left V (tablePoly V u)
  obtain ⟨r, hr⟩ := EuclideanDomain.gcd_dvd_right V (tablePoly V u)
  rw [← hg] at hq hr
  have hq0 : q ≠ 0 := by
    rintro rfl
    exact hV0 (by rw [hq, mul_zero])
  have hg0 : g ≠ 0 := by
    intro h0
    exact hV0 (by rw [hq, h0, zero_mul])
  have hd : V ∣ tablePoly V (act q u) := by
    have h1 := tablePoly_act h.2.1 q
    have h2 : V ∣ q * tablePoly V u := by
      refine ⟨r, ?_⟩
      linear_combination q * hr - r * hq
    have := dvd_add h1 h2
    rwa [sub_add_cancel] at this
  have hz : tablePoly V (act q u) = 0 := by
    rcases tablePoly_degree V (act q u) with h1 | h1
    · apply eq_zero_of_dvd_of_degree_lt hd
      rwa [degree_eq_natDegree hV0]
    · exact h1
  have hact := tablePoly_inj hV0 (annih_act h.2.1 q) hz
  have hdq := natDegree_le_of_dvd (h.2.2 q ((annihilates_iff _ _).mpr hact)) hq0
  have hdeg : V.natDegree = g.natDegree + q.natDegree := by rw [hq, natDegree_mul hg0 hq0]
  exact isUnit_iff_degree_eq_zero.mpr (by rw [degree_eq_natDegree hg0]; exact_mod_cast (by omega : g.natDegree = 0))

theorem act_one (w : ℕ → K) : act 1 w = w := by
  rw [act, map_one]
  rfl

theorem lseq_add (l : A →ₗ[K] K) (x a b : A) : lseq l x (a + b) = lseq l x a + lseq l x b := by
  funext i
  rw [lseq, mul_add, map_add]
  rfl

theorem lseq_smul (l : A →ₗ[K] K) (x : A) (c : K) (a : A) : lseq l x (c • a) = c • lseq l x a := by
  funext i
  rw [lseq, mul_smul_comm, map_smul]
  rfl

/-- Numerators of elements of the algebra. -/
noncomputable def num (V : K[X]) (l : A →ₗ[K] K) (x a : A) : K[X] := tablePoly V (lseq l x a)

theorem num_add (V : K[X]) (l : A →ₗ[K] K) (x a b : A) : num V l x (a + b) = num V l x a + num V l x b := by
  rw [num, lseq_add, tablePoly_add]
  rfl

theorem num_smul (V : K[X]) (l : A →ₗ[K] K) (x : A) (c : K) (a : A) : num V l x (c • a) = C c * num V l x a := by
  rw [num, lseq_smul, tablePoly_smul]
  rfl

theorem num_aeval {V : K[X]} {l : A →ₗ[K] K} {x : A} (hV : aeval x V = 0) (a : A) (q : K[X]) :
    V ∣ num V l x (aeval x q * a) - q * num V l x a := by
  rw [num, ← act_lseq]
  exact tablePoly_act (annih_of_aeval a hV) q

theorem num_dvd {V e t : K[X]} (hV0 : V ≠ 0) (hV : V = e * t) {l : A →ₗ[K] K} {x : A} (hx : aeval x V = 0) (a : A) :
    e ∣ num V l x a ↔ lseq l x (aeval x t * a) = 0 := by
  have ht0 : t ≠ 0 := by
    rintro rfl
    exact hV0 (by rw [hV, mul_zero])
  have h1 := num_aeval (l := l) hx a t
  constructor
  · intro h
    have h2 : V ∣ t * num V l x a := by
      have := mul_dvd_mul_left t h
      rwa [mul_comm t e, ← hV] at this
    have h3 := dvd_add h1 h2
    rw [sub_add_cancel] at h3
    apply tablePoly_inj hV0 (annih_of_aeval _ hx)
    rcases tablePoly_degree V (lseq l x (aeval x t * a)) with h4 | h4
    · apply eq_zero_of_dvd_of_degree_lt h3
      rwa [degree_eq_natDegree hV0]
    · exact h4
  · intro h
    have h2 : num V l x (aeval x t * a) = 0 := by
      rw [num, h]
      have := tablePoly_smul V 0 (0 : ℕ → K)
      rw [zero_smul, C_0, zero_mul] at this
      exact this
    rw [h2, zero_sub, dvd_neg] at h1
    obtain ⟨c, hc⟩ := h1
    refine ⟨c, mul_left_cancel₀ ht0 ?_⟩
    rw [hc]
    conv_lhs => rw [hV]
    ring

/-- The table entries are values of a linear form. -/
theorem res_eq {M : Mat K} {b : ℕ → A} {x : A} (h : IsMulMat M b x) (l : A →ₗ[K] K) {vecinit : ℕ → K}
    (hv : ∀ k, k < M.ncols → vecinit k = l (b k)) (vvec : ℕ → K) (j : ℕ) (hj : j = 0 ∧ 0 < M.ncols ∨ j + 1 < M.ncols) :
    (fun i => M.res vecinit vvec i j) = lseq l x (b (if j = 0 then 0 else j + 1)) := by
  funext i
  rw [Mat.res, iter_spec h l hv vvec i _ (by split_ifs <;> omega)]
  rfl

theorem pts_getD {M : Mat K} {vecinit vvec : ℕ → K} {u : ℕ → K} (hu : (fun i => M.res vecinit vvec i 0) = u) (i : ℕ)
    (hi : i < 2 * M.ncols) : (M.pts vecinit vvec).getD i 0 = u i := by
  rw [← hu, Mat.pts, List.getD_eq_getElem?_getD, List.getElem?_map, List.getElem?_range hi]
  rfl

theorem pts_length (M : Mat K) (vecinit vvec : ℕ → K) : (M.pts vecinit vvec).length = 2 * M.ncols := by
  rw [Mat.pts, List.length_map, List.length_range]

/-- The minimal polynomial of the scalar sequence. -/
theorem minPoly_seq [Module.Finite K A] {hg : K[X] → K[X] → HM K} (hhg : HgcdOk hg) {D : ℕ} (hfin : Module.finrank K A = D)
    {l : A →ₗ[K] K} {x : A} {pts : List K} (hlen : pts.length = 2 * D)
    (hpts : ∀ i, i < 2 * D → pts.getD i 0 = lseq l x 1 i) :
    IsMinPoly (elimPoly hg pts D) (lseq l x 1) ∧ (elimPoly hg pts D).natDegree ≤ D := by
  refine elimPoly_min hhg (by omega) hpts ⟨minpoly K x, minpoly.ne_zero (Algebra.IsIntegral.isIntegral x), ?_, ?_⟩
  · rw [← hfin]
    exact minpoly.natDegree_le x
  · exact annih_of_aeval 1 (minpoly.aeval K x)

theorem minpoly_of_degree [Module.Finite K A] {D : ℕ} (hfin : Module.finrank K A = D)
    {l : A →ₗ[K] K} {x : A} {V : K[X]} (hV : IsMinPoly V (lseq l x 1)) (hd : V.natDegree = D) : V = minpoly K x := by
  have hm : (minpoly K x).Monic := minpoly.monic (Algebra.IsIntegral.isIntegral x)
  have hdvd : V ∣ minpoly K x := hV.2.2 _ (annih_of_aeval 1 (minpoly.aeval K x))
  refine (eq_of_monic_of_dvd_of_natDegree_le hV.1 hm hdvd ?_).symm
  rw [hd, ← hfin]
  exact minpoly.natDegree_le x

/-- Every element is a polynomial in `x` when the minimal polynomial has full degree. -/
theorem poly_of_full [Module.Finite K A] {D : ℕ} (hD : 0 < D) (hfin : Module.finrank K A = D) {x : A}
    (hd : (minpoly K x).natDegree = D) (a : A) :
    ∃ c : ℕ → K, a = aeval x (∑ i ∈ Finset.range D, C (c i) * X ^ i) := by
  subst hd
  have hli := linearIndependent_pow (K := K) x
  have hspan := hli.span_eq_top_of_card_eq_finrank' (by rw [Fintype.card_fin, hfin])
  have ha : a ∈ Submodule.span K (Set.range fun i : Fin (minpoly K x).natDegree => x ^ (i : ℕ)) := by
    rw [hspan]
    trivial
  obtain ⟨c, hc⟩ := (Submodule.mem_span_range_iff_exists_fun K).mp ha
  refine ⟨fun i => if h : i < (minpoly K x).natDegree then c ⟨i, h⟩ else 0, ?_⟩
  rw [map_sum, Finset.sum_range, ← hc]
  refine Finset.sum_congr rfl fun i _ => ?_
  beta_reduce
  rw [map_mul, aeval_C, map_pow, aeval_X, dif_pos i.2, Algebra.smul_def]

/-- Coordinates from the solution of the Hankel system. -/
theorem coordShape_spec [Module.Finite K A] {D : ℕ} (hD : 0 < D) (hfin : Module.finrank K A = D) {l : A →ₗ[K] K} {x : A}
    (hd : (minpoly K x).natDegree = D) {Z1 Z2 : K[X]} (hok : InvSpec (lseq l x 1) D (.ok Z1 Z2)) (a : A) :
    a + aeval x (coordShape (minpoly K x) Z1 Z2 D (lseq l x a)) = 0 := by
  obtain ⟨c, hc⟩ := poly_of_full hD hfin hd a
  have hsol := solve_spec hD hok (lseq l x a)
  have hreg : Regular (lseq l x 1) D := hok.1
  set P := mirror (solve Z1 Z2 D (lseq l x a)) D with hP
  set Q : K[X] := ∑ i ∈ Finset.range D, C (c i) * X ^ i with hQ
  have hQc : ∀ q, Q.coeff q = if q < D then c q else 0 := poly_coeff c D
  have hQd : Q.natDegree < D := by
    by_cases h0 : Q = 0
    · rw [h0, natDegree_zero]
      exact hD
    · rw [natDegree_lt_iff_degree_lt h0, degree_lt_iff_coeff_zero]
      intro m hm
      rw [hQc, if_neg (by omega)]
  have hQs : ∀ t, t < D → hmul (lseq l x 1) D Q.coeff t = lseq l x a t := by
    intro t _
    have h1 := congrFun (act_lseq l x 1 Q) t
    rw [mul_one, ← hc, act_apply Q _ t hQd] at h1
    rw [← h1, hmul]
    exact Finset.sum_congr rfl fun i _ => mul_comm _ _
  have hPQ : P = Q := by
    ext m
    by_cases hm : m < D
    · have h1 := hreg (fun i => P.coeff i + (-1) * Q.coeff i) (fun t ht => by
        rw [hmul_add _ _ P.coeff (fun i => (-1) * Q.coeff i), hmul_smul, hsol t ht, hQs t ht]
        ring) m hm
      linear_combination h1
    · rw [hP, mirror_coeff, if_neg hm, hQc, if_neg hm]
  have hneg : mirror (-solve Z1 Z2 D (lseq l x a)) D = -Q := by
    rw [← hPQ, hP]
    ext m
    rw [coeff_neg, mirror_coeff, mirror_coeff]
    split_ifs
    · rw [coeff_neg]
    · rw [neg_zero]
  have hm0 : minpoly K x ≠ 0 := minpoly.ne_zero (Algebra.IsIntegral.isIntegral x)
  unfold coordShape
  rw [hneg, mod_eq_self_iff hm0 |>.mpr, map_neg, ← hc, add_neg_cancel]
  rw [degree_neg, degree_eq_natDegree hm0, hd, degree_lt_iff_coeff_zero]
  intro m hm
  rw [hQc, if_neg (by omega)]

/-! ### The other cases -/

theorem num_sub_aeval {V e t : K[X]} (hV : V = e * t) {l : A →ₗ[K] K} {x : A} (hx : aeval x V = 0) (a b : A) (P : K[X]) :
    e ∣ num V l x (b - aeval x P * a) - (num V l x b - P * num V l x a) := by
  have h1 := num_aeval (l := l) hx a P
  have h2 : num V l x (b - aeval x P * a) = num V l x b - num V l x (aeval x P * a) := by
    have := num_smul V l x (-1) (aeval x P * a)
    rw [neg_one_smul] at this
    rw [sub_eq_add_neg, num_add, this, C_neg, C_1]
    ring
  have h3 : e ∣ V := ⟨t, hV⟩
  have h4 := (h3.trans h1).neg_right
  rw [h2]
  have e1 : num V l x b - num V l x (aeval x P * a) - (num V l x b - P * num V l x a) =
      -(num V l x (aeval x P * a) - P * num V l x a) := by ring
  rw [e1]
  exact h4

theorem xgcd_inv {xg : K[X] → K[X] → K[X] × K[X] × K[X]} (hxg : XgcdOk xg) {e b : K[X]} (he : e ≠ 0) (h : IsCoprime e b) :
    (xg e b).1 = 1 ∧ e ∣ (xg e b).2.2 * b - 1 := by
  have hu : IsUnit (xg e b).1 := h.isUnit_of_dvd' (hxg.left e b) (hxg.right e b)
  have h1 : (xg e b).1 = 1 := (hxg.monic e b (Or.inl he)).isUnit_iff.mp hu
  refine ⟨h1, ?_⟩
  have := hxg.bez e b
  rw [h1] at this
  refine ⟨-(xg e b).2.1, ?_⟩
  linear_combination this

theorem coordTable_mul {e V Z2 b : K[X]} (hb : e ∣ Z2 * b - 1) (w : ℕ → K) :
    e ∣ tablePoly V w - -(coordTable e V Z2 w) * b := by
  unfold coordTable
  have h1 : e ∣ tablePoly V w * Z2 - tablePoly V w * Z2 % e := by
    refine ⟨tablePoly V w * Z2 / e, ?_⟩
    have := EuclideanDomain.div_add_mod (tablePoly V w * Z2) e
    linear_combination -this
  rw [neg_neg]
  have h2 := (dvd_mul_of_dvd_left h1 b)
  have h3 := (dvd_mul_of_dvd_right hb (tablePoly V w))
  have h4 := dvd_sub h2 h3
  have e1 : tablePoly V w - tablePoly V w * Z2 % e * b =
      (tablePoly V w * Z2 - tablePoly V w * Z2 % e) * b - tablePoly V w * (Z2 * b - 1) := by ring
  rw [e1]
  exact h4

theorem coordTable_degree {e : K[X]} (he : e ≠ 0) (V Z2 : K[X]) (w : ℕ → K) : (coordTable e V Z2 w).degree < e.degree := by
  unfold coordTable
  rw [degree_neg]
  exact degree_mod_lt _ he

/-- The coordinates outside shape position. -/
theorem coordTable_spec {xg : K[X] → K[X] → K[X] × K[X] × K[X]} (hxg : XgcdOk xg) {V e t : K[X]} {l : A →ₗ[K] K} {x : A}
    (hV : IsMinPoly V (lseq l x 1)) (hx : aeval x V = 0) (hVe : V = e * t) :
    ∃ Z2, invTable xg e V (lseq l x 1) = some Z2 ∧ ∀ a : A, ∀ P, P = -coordTable e V Z2 (lseq l x a) →
      P.degree < e.degree ∧ ∀ P' : K[X], lseq l x (aeval x t * (a - aeval x P')) = 0 ↔ e ∣ P' - P := by
  have hV0 := hV.1.ne_zero
  have he : e ≠ 0 := by
    rintro rfl
    exact hV0 (by rw [hVe, zero_mul])
  have hcop : IsCoprime e (tablePoly V (lseq l x 1)) := by
    have := tablePoly_coprime hV
    rw [hVe] at this
    rw [hVe]
    exact this.of_mul_left_left
  obtain ⟨h1, h2⟩ := xgcd_inv hxg he hcop
  refine ⟨(xg e (tablePoly V (lseq l x 1))).2.2, ?_, ?_⟩
  · unfold invTable
    simp only
    rw [h1, dg_of_ne one_ne_zero, natDegree_one, if_pos (by simp)]
  · intro a P hP
    set Z2 := (xg e (tablePoly V (lseq l x 1))).2.2
    refine ⟨?_, fun P' => ?_⟩
    · rw [hP, degree_neg]
      exact coordTable_degree he V Z2 _
    · rw [← num_dvd hV0 hVe hx]
      have h3 := coordTable_mul (V := V) h2 (lseq l x a)
      rw [← hP] at h3
      have h4 := num_sub_aeval (l := l) hVe hx 1 a P'
      rw [mul_one] at h4
      have h5 : e ∣ num V l x (a - aeval x P') - (P - P') * num V l x 1 := by
        have := dvd_add h4 h3
        have e1 : num V l x (a - aeval x P') - (P - P') * num V l x 1 =
            num V l x (a - aeval x P') - (num V l x a - P' * num V l x 1) +
              (tablePoly V (lseq l x a) - P * tablePoly V (lseq l x 1)) := by
          unfold num
          ring
        rw [e1]
        exact this
      constructor
      · intro h
        have h6 := (dvd_sub_right h).mp h5
        have h7 := hcop.dvd_of_dvd_mul_right h6
        rwa [← dvd_neg, neg_sub] at h7
      · intro h
        have h7 : e ∣ (P - P') * num V l x 1 := by
          rw [← dvd_neg, neg_sub] at h
          exact dvd_mul_of_dvd_left h _
        exact (dvd_sub_left h7).mp h5

/-- The verification of a coordinate, fglm_core.c 1287-1315: `w0`, `w1`, `w2` are the columns of 1, of the variable and
of its square, `lam` the random multiplier. -/
noncomputable def verify (xg : K[X] → K[X] → K[X] × K[X] × K[X]) (e V coord : K[X]) (lam : K) (w0 w1 w2 : ℕ → K) : Prop :=
  coord = coordTable e V (xg e (tablePoly V fun i => w1 i + lam * w0 i)).2.2 fun i => w2 i + lam * w1 i

theorem verify_spec {xg : K[X] → K[X] → K[X] × K[X] × K[X]} (hxg : XgcdOk xg) {V e t : K[X]} {l : A →ₗ[K] K} {x : A}
    (hV : IsMinPoly V (lseq l x 1)) (hx : aeval x V = 0) (hVe : V = e * t) {a : A} {P : K[X]} (hPd : P.degree < e.degree)
    (hP : lseq l x (aeval x t * (a - aeval x P)) = 0) {lam : K}
    (hcop : IsCoprime e (tablePoly V fun i => lseq l x a i + lam * lseq l x 1 i)) :
    verify xg e V (-P) lam (lseq l x 1) (lseq l x a) (lseq l x (a * a)) ↔
      lseq l x (aeval x t * (a * a - aeval x P * aeval x P)) = 0 := by
  have hV0 := hV.1.ne_zero
  have he : e ≠ 0 := by
    rintro rfl
    exact hV0 (by rw [hVe, zero_mul])
  unfold verify
  have ew1 : (fun i => lseq l x a i + lam * lseq l x 1 i) = lseq l x (a + lam • 1) := by
    rw [lseq_add, lseq_smul]
    rfl
  have ew2 : (fun i => lseq l x (a * a) i + lam * lseq l x a i) = lseq l x ((a + lam • 1) * a) := by
    rw [add_mul, smul_mul_assoc, one_mul, lseq_add, lseq_smul]
    rfl
  rw [ew1] at hcop ⊢
  rw [ew2]
  obtain ⟨_, h2⟩ := xgcd_inv hxg he hcop
  set Z := (xg e (tablePoly V (lseq l x (a + lam • 1)))).2.2
  set R := coordTable e V Z (lseq l x ((a + lam • 1) * a)) with hR
  have h3 := coordTable_mul (V := V) h2 (lseq l x ((a + lam • 1) * a))
  rw [← hR] at h3
  have hRd : R.degree < e.degree := coordTable_degree he _ _ _
  rw [← num_dvd hV0 hVe hx] at hP ⊢
  -- (a + lam) (a - P)
  have h4 := num_sub_aeval (l := l) hVe hx (a + lam • 1) ((a + lam • 1) * a) P
  have h5 := num_sub_aeval (l := l) hVe hx (a - aeval x P) (a * a - aeval x P * aeval x P) P
  have e5 : a * a - aeval x P * aeval x P - aeval x P * (a - aeval x P) = a * (a - aeval x P) := by ring
  rw [e5] at h5
  have e4 : (a + lam • 1) * a - aeval x P * (a + lam • 1) = a * (a - aeval x P) + lam • (a - aeval x P) := by
    rw [Algebra.smul_def, Algebra.smul_def]
    ring
  rw [e4, num_add, num_smul] at h4
  -- e | num (a (a - P)) iff e | num (a a - P P)
  have h6 : e ∣ num V l x (a * (a - aeval x P)) - num V l x (a * a - aeval x P * aeval x P) := by
    have h7 := dvd_sub h5 (dvd_mul_of_dvd_right hP P)
    have e1 : num V l x (a * (a - aeval x P)) - num V l x (a * a - aeval x P * aeval x P) =
      num V l x (a * (a - aeval x P)) - (num V l x (a * a - aeval x P * aeval x P) - P * num V l x (a - aeval x P)) -
        P * num V l x (a - aeval x P) := by ring
    rw [e1]
    exact h7
  -- relation with the check
  have h8 : e ∣ num V l x (a * (a - aeval x P)) - (-R - P) * tablePoly V (lseq l x (a + lam • 1)) := by
    have h9 := dvd_sub (dvd_add h4 h3) (dvd_mul_of_dvd_right hP (C lam))
    have e1 : num V l x (a * (a - aeval x P)) - (-R - P) * tablePoly V (lseq l x (a + lam • 1)) =
      num V l x (a * (a - aeval x P)) + C lam * num V l x (a - aeval x P) -
        (num V l x ((a + lam • 1) * a) - P * num V l x (a + lam • 1)) +
        (tablePoly V (lseq l x ((a + lam • 1) * a)) - -R * tablePoly V (lseq l x (a + lam • 1))) -
        C lam * num V l x (a - aeval x P) := by
      unfold num
      ring
    rw [e1]
    exact h9
  constructor
  · intro h
    have h10 : -R - P = 0 := by rw [← h]; ring
    rw [h10, zero_mul, sub_zero] at h8
    exact (dvd_sub_right h8).mp h6
  · intro h
    have h10 : e ∣ num V l x (a * (a - aeval x P)) := (dvd_sub_left h).mp h6
    have h11 := (dvd_sub_right h10).mp h8
    have h12 := hcop.dvd_of_dvd_mul_right h11
    have h13 : -R - P = 0 := by
      apply eq_zero_of_dvd_of_degree_lt h12
      refine lt_of_le_of_lt (degree_sub_le _ _) ?_
      rw [degree_neg]
      exact max_lt hRd hPd
    linear_combination h13

end Verif.Fglm
