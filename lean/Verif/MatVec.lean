import Mathlib.Tactic.Ring
import Mathlib.Tactic.Linarith
import Mathlib.Tactic.NormNum
import Mathlib.Data.Int.ModEq
import Mathlib.Data.Nat.ModEq
import Mathlib.Algebra.BigOperators.Intervals
import Mathlib.Algebra.BigOperators.Fin
import Mathlib.Algebra.Order.BigOperators.Group.Finset

/-! Model of the dense modular matrix–vector products of `src/fglm/linalg-fglm.c` and of
`sparse_mat_fglm_mult_vec` in `src/fglm/fglm_core.c`. -/

namespace Verif.MatVec

open Finset

/-! ### The portable path -/

/-- `int64_t` arithmetic: signed overflow is undefined behaviour, represented by `none`. -/
def i64 (x : Int) : Option Int := if -2 ^ 63 ≤ x ∧ x < 2 ^ 63 then some x else none

/-- One accumulation step of `non_avx_matrix_vector_product`, linalg-fglm.c 104-175:
`prod -= (int64_t)m * v; prod += (prod >> 63) & modsquare;`. -/
def navxStep (p : Nat) (acc : Option Int) (mv : Nat × Nat) : Option Int :=
  acc.bind fun acc =>
  (i64 ((mv.1 : Int) * mv.2)).bind fun t =>
  (i64 (acc - t)).bind fun r =>
  if r < 0 then i64 (r + (p : Int) * p) else some r

/-- One row of `non_avx_matrix_vector_product`, linalg-fglm.c 83-256.  The unrolling by 8 columns
and by 4 rows does not change the sequence of operations applied to one accumulator, so a row is
a left fold over its columns, followed by `prod = -prod; prod += (prod>>63) & modsquare;
(uint32_t)(prod % PRIME)`. -/
def navxRow (p : Nat) (m v : Nat → Nat) (ncols : Nat) : Option Nat := do
  let _ ← i64 ((p : Int) * p)
  let acc ← ((List.range ncols).map (fun i => (m i, v i))).foldl (navxStep p) (some 0)
  let r ← i64 (-acc)
  let r ← if r < 0 then i64 (r + (p : Int) * p) else some r
  some ((Int.tmod r p) % 2 ^ 32).toNat

/-! ### The AVX2 path -/

/-- The 64 bit lane `l` (`l < 4`) of `res1` for block `b`, linalg-fglm.c 682-744: four loads of
eight `uint32_t` each; lane `l` holds the entries `2l` (low half) and `2l+1` (high half); the
eight products are added modulo `2^64`. -/
def blockLane (m v : Nat → Nat) (b l : Nat) : Nat :=
  let q (k : Nat) := m (32 * b + k) * v (32 * b + k)
  (q (2 * l) + q (2 * l + 1) + (q (8 + 2 * l) + q (8 + 2 * l + 1)) +
    (q (16 + 2 * l) + q (16 + 2 * l + 1)) + (q (24 + 2 * l) + q (24 + 2 * l + 1))) % 2 ^ 64

/-- Accumulation over the blocks, linalg-fglm.c 680-749: the low and the high 32 bits of `res1`
are accumulated in two separate 64 bit lanes. Returns `(acc_low, acc_high)` of lane `l`. -/
def accLanes (m v : Nat → Nat) (l : Nat) : Nat → Nat × Nat
  | 0 => (0, 0)
  | b + 1 =>
    let a := accLanes m v l b
    let r := blockLane m v b l
    ((a.1 + r % 2 ^ 32) % 2 ^ 64, (a.2 + r / 2 ^ 32) % 2 ^ 64)

/-- Reduction of one lane, linalg-fglm.c 761-766. All operations are on `uint64_t`. -/
def redLane (p red32 red64 : Nat) (a : Nat × Nat) : Nat :=
  let x := (a.1 + (a.2 / 2 ^ 32 * red64 % 2 ^ 64) % p) % 2 ^ 64
  let x := (x + (a.2 % 2 ^ 32 * red32 % 2 ^ 64) % p) % 2 ^ 64
  x % p

/-- One row of `_8mul_matrix_vector_product`, linalg-fglm.c 658-776, for `ncols` used columns
(`local_ncols`). The rest loop works on `long`. -/
def avxRow (p red32 red64 : Nat) (m v : Nat → Nat) (ncols : Nat) : Nat :=
  let quo := ncols / 32
  let rem := ncols % 32
  let lane (l : Nat) := redLane p red32 red64 (accLanes m v l quo)
  let acc64 := ((((lane 0 + lane 1) % 2 ^ 64 + lane 2) % 2 ^ 64) + lane 3) % 2 ^ 64
  let r0 := acc64 % p
  let tmp := ∑ k ∈ range rem, (m (32 * quo + k) * v (32 * quo + k)) % p
  (r0 + tmp) % p

/-- `RED_32` and `RED_64` as computed in fglm_core.c (e.g. 2126-2129): `RED_32 = 2^32 % prime`,
`RED_64 = 2 * (2^63 % prime) % prime`. -/
def RED32 (p : Nat) : Nat := 2 ^ 32 % p
def RED64 (p : Nat) : Nat := 2 * (2 ^ 63 % p) % p

/-- The dot product the rows are meant to compute. -/
def dot (m v : Nat → Nat) (n : Nat) : Nat := ∑ i ∈ range n, m i * v i

/-! ### Correctness of the portable path -/

theorem sq_lt (p : Nat) (hp2 : p < 2 ^ 31) : (p : Int) * p < 2 ^ 62 := by
  have h : (p : Int) < 2147483648 := by omega
  have h0 : (0 : Int) ≤ p := by omega
  have : (p : Int) * p < 2147483648 * 2147483648 := by nlinarith
  norm_num at this ⊢
  exact this

theorem i64_some (x : Int) (h1 : -2 ^ 63 ≤ x) (h2 : x < 2 ^ 63) : i64 x = some x := by
  unfold i64; rw [if_pos ⟨h1, h2⟩]

theorem navxStep_spec (p : Nat) (r : Int) (a b : Nat) (hp : (p : Int) * p < 2 ^ 62)
    (h0 : 0 ≤ r) (h1 : r < (p : Int) * p) (hq : (a : Int) * b < (p : Int) * p) :
    ∃ s : Int, navxStep p (some r) (a, b) = some s ∧ 0 ≤ s ∧ s < (p : Int) * p ∧
      (s = r - a * b ∨ s = r - a * b + p * p) := by
  have hq0 : 0 ≤ (a : Int) * b := by positivity
  unfold navxStep
  rw [Option.bind_some]
  generalize (a : Int) * b = q at *
  generalize (p : Int) * p = pp at *
  rw [i64_some q (by linarith) (by linarith)]
  simp only [Option.bind_some]
  rw [i64_some (r - q) (by linarith) (by linarith)]
  simp only [Option.bind_some]
  split_ifs with hneg
  · exact ⟨_, i64_some _ (by linarith) (by linarith), by linarith, by linarith, Or.inr rfl⟩
  · exact ⟨_, rfl, by linarith, by linarith, Or.inl rfl⟩

theorem navx_fold (p : Nat) (hp0 : 0 < p) (hp2 : p < 2 ^ 31) (m v : Nat → Nat) (ncols : Nat)
    (hm : ∀ i < ncols, m i < p) (hv : ∀ i < ncols, v i < p) :
    ∃ r : Int, ((List.range ncols).map (fun i => (m i, v i))).foldl (navxStep p) (some 0) = some r ∧
      0 ≤ r ∧ r < (p : Int) * p ∧ (p : Int) ∣ r + dot m v ncols := by
  have hpp := sq_lt p hp2
  clear hp2
  induction ncols with
  | zero => exact ⟨0, by simp, le_refl _, by positivity, by simp [dot]⟩
  | succ n ih =>
    obtain ⟨r, h1, h2, h3, h5⟩ := ih (fun i hi => hm i (by omega)) (fun i hi => hv i (by omega))
    rw [List.range_succ, List.map_append, List.foldl_append, h1]
    have hmn := hm n (by omega)
    have hvn := hv n (by omega)
    have hq : (m n : Int) * v n < (p : Int) * p := by
      have : m n * v n < p * p := Nat.mul_lt_mul_of_lt_of_le hmn hvn.le hp0
      exact_mod_cast this
    have hdot : (dot m v (n + 1) : Int) = dot m v n + (m n : Int) * v n := by
      simp [dot, sum_range_succ]
    rw [hdot]
    obtain ⟨s, e1, e2, e3, e4⟩ := navxStep_spec p r (m n) (v n) hpp h2 h3 hq
    refine ⟨s, by rw [List.map_cons, List.map_nil, List.foldl_cons, List.foldl_nil, e1], e2, e3, ?_⟩
    rcases e4 with rfl | rfl
    · have : r - (m n : Int) * v n + (dot m v n + (m n : Int) * v n) = r + dot m v n := by ring
      rw [this]; exact h5
    · have : r - (m n : Int) * v n + p * p + (dot m v n + (m n : Int) * v n)
        = (r + dot m v n) + p * p := by ring
      rw [this]
      exact Dvd.dvd.add h5 (Dvd.intro _ rfl)

theorem navxRow_correct (p : Nat) (hp0 : 0 < p) (hp2 : p < 2 ^ 31) (m v : Nat → Nat) (ncols : Nat)
    (hm : ∀ i < ncols, m i < p) (hv : ∀ i < ncols, v i < p) :
    navxRow p m v ncols = some (dot m v ncols % p) := by
  obtain ⟨r, h1, h2, h3, h5⟩ := navx_fold p hp0 hp2 m v ncols hm hv
  have hpp := sq_lt p hp2
  have hpp0 : 0 ≤ (p : Int) * p := by positivity
  have e0 : i64 ((p : Int) * p) = some ((p : Int) * p) := by
    exact i64_some _ (by linarith) (by linarith)
  have e1 : i64 (-r) = some (-r) := by
    exact i64_some _ (by linarith) (by linarith)
  have key : ∀ s : Int, 0 ≤ s → (p : Int) ∣ s - dot m v ncols →
      ((Int.tmod s p) % 2 ^ 32).toNat = dot m v ncols % p := by
    intro s hs hd
    obtain ⟨k, rfl⟩ := Int.eq_ofNat_of_zero_le hs
    have hk : k % p = dot m v ncols % p := by
      have : (dot m v ncols : Int) ≡ k [ZMOD p] := (Int.modEq_iff_dvd).mpr hd
      exact (Int.natCast_modEq_iff.mp this).symm
    rw [← hk]
    have hlt : k % p < p := Nat.mod_lt _ hp0
    have : Int.tmod (k : Int) p = ((k % p : Nat) : Int) := by
      rw [Int.tmod_eq_emod_of_nonneg (by omega)]; simp
    rw [this]
    omega
  unfold navxRow
  simp only [Option.bind_eq_bind, e0, h1, Option.bind_some, e1]
  split_ifs with hneg
  · have e3 : i64 (-r + (p : Int) * p) = some (-r + (p : Int) * p) := by
      exact i64_some _ (by linarith) (by linarith)
    rw [e3]
    simp only [Option.bind_some]
    rw [key _ (by linarith)]
    have : -r + (p : Int) * p - dot m v ncols = -(r + dot m v ncols) + p * p := by ring
    rw [this]
    exact Dvd.dvd.add ((Int.dvd_neg).mpr h5) (Dvd.intro _ rfl)
  · rw [key _ (by linarith)]
    have : -r - (dot m v ncols : Int) = -(r + dot m v ncols) := by ring
    rw [this]
    exact (Int.dvd_neg).mpr h5

/-! ### Correctness of the AVX2 path -/

/-- The eight products of a lane without truncation. -/
def blockLaneN (m v : Nat → Nat) (b l : Nat) : Nat :=
  let q (k : Nat) := m (32 * b + k) * v (32 * b + k)
  (q (2 * l) + q (2 * l + 1) + (q (8 + 2 * l) + q (8 + 2 * l + 1)) +
    (q (16 + 2 * l) + q (16 + 2 * l + 1)) + (q (24 + 2 * l) + q (24 + 2 * l + 1)))

theorem blockLane_eq (p : Nat) (m v : Nat → Nat) (b l : Nat) (hl : l < 4)
    (h8 : 8 * (p - 1) ^ 2 < 2 ^ 64)
    (hm : ∀ i < 32 * (b + 1), m i < p) (hv : ∀ i < 32 * (b + 1), v i < p) :
    blockLane m v b l = blockLaneN m v b l := by
  have hq : ∀ k < 32, m (32 * b + k) * v (32 * b + k) ≤ (p - 1) ^ 2 := by
    intro k hk
    have h1 := hm (32 * b + k) (by omega)
    have h2 := hv (32 * b + k) (by omega)
    rw [pow_two]
    exact Nat.mul_le_mul (by omega) (by omega)
  unfold blockLane blockLaneN
  apply Nat.mod_eq_of_lt
  have a1 := hq (2 * l) (by omega)
  have a2 := hq (2 * l + 1) (by omega)
  have a3 := hq (8 + 2 * l) (by omega)
  have a4 := hq (8 + 2 * l + 1) (by omega)
  have a5 := hq (16 + 2 * l) (by omega)
  have a6 := hq (16 + 2 * l + 1) (by omega)
  have a7 := hq (24 + 2 * l) (by omega)
  have a8 := hq (24 + 2 * l + 1) (by omega)
  linarith

theorem accLanes_spec (p : Nat) (m v : Nat → Nat) (l : Nat) (hl : l < 4)
    (h8 : 8 * (p - 1) ^ 2 < 2 ^ 64) :
    ∀ q, q < 2 ^ 27 → (∀ i < 32 * q, m i < p) → (∀ i < 32 * q, v i < p) →
      (accLanes m v l q).1 ≤ q * (2 ^ 32 - 1) ∧ (accLanes m v l q).2 ≤ q * (2 ^ 32 - 1) ∧
      (accLanes m v l q).1 + 2 ^ 32 * (accLanes m v l q).2 =
        ∑ b ∈ range q, blockLaneN m v b l := by
  intro q
  induction q with
  | zero => intros; simp [accLanes]
  | succ q ih =>
    intro hq hm hv
    obtain ⟨h1, h2, h3⟩ := ih (by omega) (fun i hi => hm i (by omega)) (fun i hi => hv i (by omega))
    have hb := blockLane_eq p m v q l hl h8 hm hv
    rw [sum_range_succ, ← h3, ← hb]
    have hb64 : blockLane m v q l < 2 ^ 64 := Nat.mod_lt _ (by norm_num)
    simp only [accLanes]
    generalize blockLane m v q l = r at *
    generalize accLanes m v l q = a at *
    have e1 : (a.1 + r % 2 ^ 32) % 2 ^ 64 = a.1 + r % 2 ^ 32 := Nat.mod_eq_of_lt (by omega)
    have e2 : (a.2 + r / 2 ^ 32) % 2 ^ 64 = a.2 + r / 2 ^ 32 := Nat.mod_eq_of_lt (by omega)
    rw [e1, e2]
    refine ⟨by omega, by omega, by omega⟩

theorem sum_blocks (f : Nat → Nat) (q : Nat) :
    (∑ b ∈ range q, ∑ k ∈ range 32, f (32 * b + k)) = ∑ i ∈ range (32 * q), f i := by
  induction q with
  | zero => simp
  | succ q ih =>
    rw [sum_range_succ, ih, Nat.mul_succ, sum_range_add]

theorem lanes_sum (m v : Nat → Nat) (q : Nat) :
    (∑ b ∈ range q, blockLaneN m v b 0) + (∑ b ∈ range q, blockLaneN m v b 1) +
    (∑ b ∈ range q, blockLaneN m v b 2) + (∑ b ∈ range q, blockLaneN m v b 3) =
      dot m v (32 * q) := by
  unfold dot
  rw [← sum_blocks, ← sum_add_distrib, ← sum_add_distrib, ← sum_add_distrib]
  apply sum_congr rfl
  intro b _
  simp only [blockLaneN, sum_range_succ, sum_range_zero]
  ring

theorem redLane_spec (p : Nat) (hp0 : 0 < p) (hp : p < 2 ^ 32) (a : Nat × Nat)
    (h1 : a.1 < 2 ^ 59) (h2 : a.2 < 2 ^ 59) :
    redLane p (RED32 p) (RED64 p) a = (a.1 + 2 ^ 32 * a.2) % p := by
  have r32 : RED32 p < p := Nat.mod_lt _ hp0
  have r64 : RED64 p < p := Nat.mod_lt _ hp0
  have c32 : RED32 p ≡ 2 ^ 32 [MOD p] := Nat.mod_modEq _ _
  have c64 : RED64 p ≡ 2 ^ 64 [MOD p] := by
    have h : 2 * (2 ^ 63 % p) ≡ 2 * 2 ^ 63 [MOD p] := (Nat.mod_modEq _ _).mul_left 2
    exact (Nat.mod_modEq _ _).trans h
  have hh : a.2 / 2 ^ 32 < 2 ^ 27 := by omega
  have hl : a.2 % 2 ^ 32 < 2 ^ 32 := Nat.mod_lt _ (by norm_num)
  have hd : 2 ^ 32 * (a.2 / 2 ^ 32) + a.2 % 2 ^ 32 = a.2 := Nat.div_add_mod _ _
  unfold redLane
  generalize RED32 p = R at *
  generalize RED64 p = S at *
  have b1 : a.2 / 2 ^ 32 * S < 2 ^ 64 := by
    have : a.2 / 2 ^ 32 * S ≤ 2 ^ 27 * 2 ^ 32 := Nat.mul_le_mul hh.le (by omega)
    omega
  have b2 : a.2 % 2 ^ 32 * R < 2 ^ 64 := by
    have : a.2 % 2 ^ 32 * R < 2 ^ 32 * 2 ^ 32 :=
      Nat.mul_lt_mul_of_lt_of_le hl (by omega) (by norm_num)
    omega
  simp only [Nat.mod_eq_of_lt b1, Nat.mod_eq_of_lt b2]
  have m1 : a.2 / 2 ^ 32 * S % p < p := Nat.mod_lt _ hp0
  have m2 : a.2 % 2 ^ 32 * R % p < p := Nat.mod_lt _ hp0
  have c1 : a.2 / 2 ^ 32 * S % p ≡ a.2 / 2 ^ 32 * 2 ^ 64 [MOD p] :=
    (Nat.mod_modEq _ _).trans (c64.mul_left _)
  have c2 : a.2 % 2 ^ 32 * R % p ≡ a.2 % 2 ^ 32 * 2 ^ 32 [MOD p] :=
    (Nat.mod_modEq _ _).trans (c32.mul_left _)
  have hc := ((Nat.ModEq.refl (n := p) a.1).add c1).add c2
  rw [Nat.mod_eq_of_lt (show a.1 + a.2 / 2 ^ 32 * S % p < 2 ^ 64 by omega),
    Nat.mod_eq_of_lt (show a.1 + a.2 / 2 ^ 32 * S % p + a.2 % 2 ^ 32 * R % p < 2 ^ 64 by omega)]
  have : a.1 + a.2 / 2 ^ 32 * 2 ^ 64 + a.2 % 2 ^ 32 * 2 ^ 32 = a.1 + 2 ^ 32 * a.2 := by
    conv_rhs => rw [← hd]
    ring
  rw [this] at hc
  exact hc

theorem avxRow_correct (p : Nat) (hp0 : 0 < p) (hp : p < 2 ^ 32) (h8 : 8 * (p - 1) ^ 2 < 2 ^ 64)
    (m v : Nat → Nat) (ncols : Nat) (hn : ncols < 2 ^ 32)
    (hm : ∀ i < ncols, m i < p) (hv : ∀ i < ncols, v i < p) :
    avxRow p (RED32 p) (RED64 p) m v ncols = dot m v ncols % p := by
  have hq : ncols / 32 < 2 ^ 27 := by omega
  have hm' : ∀ i < 32 * (ncols / 32), m i < p := fun i hi => hm i (by omega)
  have hv' : ∀ i < 32 * (ncols / 32), v i < p := fun i hi => hv i (by omega)
  have L : ∀ l < 4, redLane p (RED32 p) (RED64 p) (accLanes m v l (ncols / 32)) =
      (∑ b ∈ range (ncols / 32), blockLaneN m v b l) % p := by
    intro l hl
    obtain ⟨h1, h2, h3⟩ := accLanes_spec p m v l hl h8 _ hq hm' hv'
    rw [redLane_spec p hp0 hp _ (by omega) (by omega), h3]
  unfold avxRow
  simp only [L 0 (by norm_num), L 1 (by norm_num), L 2 (by norm_num), L 3 (by norm_num)]
  have hs := lanes_sum m v (ncols / 32)
  generalize (∑ b ∈ range (ncols / 32), blockLaneN m v b 0) = s0 at *
  generalize (∑ b ∈ range (ncols / 32), blockLaneN m v b 1) = s1 at *
  generalize (∑ b ∈ range (ncols / 32), blockLaneN m v b 2) = s2 at *
  generalize (∑ b ∈ range (ncols / 32), blockLaneN m v b 3) = s3 at *
  have l0 : s0 % p < p := Nat.mod_lt _ hp0
  have l1 : s1 % p < p := Nat.mod_lt _ hp0
  have l2 : s2 % p < p := Nat.mod_lt _ hp0
  have l3 : s3 % p < p := Nat.mod_lt _ hp0
  rw [Nat.mod_eq_of_lt (show s0 % p + s1 % p < 2 ^ 64 by omega),
    Nat.mod_eq_of_lt (show s0 % p + s1 % p + s2 % p < 2 ^ 64 by omega),
    Nat.mod_eq_of_lt (show s0 % p + s1 % p + s2 % p + s3 % p < 2 ^ 64 by omega)]
  have c0 : (s0 % p + s1 % p + s2 % p + s3 % p) % p ≡ dot m v (32 * (ncols / 32)) [MOD p] := by
    rw [← hs]
    exact (Nat.mod_modEq _ _).trans
      ((((Nat.mod_modEq _ _).add (Nat.mod_modEq _ _)).add (Nat.mod_modEq _ _)).add
        (Nat.mod_modEq _ _))
  have c1 : (∑ k ∈ range (ncols % 32),
      (m (32 * (ncols / 32) + k) * v (32 * (ncols / 32) + k)) % p) ≡
      ∑ k ∈ range (ncols % 32), m (32 * (ncols / 32) + k) * v (32 * (ncols / 32) + k) [MOD p] := by
    unfold Nat.ModEq
    rw [← sum_nat_mod]
  have hc := c0.add c1
  have : dot m v (32 * (ncols / 32)) +
      ∑ k ∈ range (ncols % 32), m (32 * (ncols / 32) + k) * v (32 * (ncols / 32) + k) =
      dot m v ncols := by
    unfold dot
    rw [← sum_range_add (fun i => m i * v i), Nat.div_add_mod]
  rw [this] at hc
  exact hc

/-! ### The multiplication by the (sparse) multiplication matrix -/

/-- The structure `sp_matfglm_t` as used by `sparse_mat_fglm_mult_vec`: `triv` is the list of pairs
(`triv_idx[i]`, `triv_pos[i]`), `dense` the list of (`dense_idx[i]`, row `i` of `dense_mat`,
`dst[i]`). -/
structure SpMat where
  ncols : Nat
  triv : List (Nat × Nat)
  dense : List (Nat × (Nat → Nat) × Nat)

/-- `sparse_mat_fglm_mult_vec`, fglm_core.c 485-515 (AVX2 branch): the array `res` after the
trivial rows and then the dense rows were stored. -/
def multVec (p : Nat) (M : SpMat) (vec res : Nat → Nat) : Nat → Nat :=
  let res := M.triv.foldl (fun res ip => Function.update res ip.1 (vec ip.2)) res
  M.dense.foldl (fun res d =>
    Function.update res d.1 (avxRow p (RED32 p) (RED64 p) d.2.1 vec (M.ncols - d.2.2))) res

/-- Same function when compiled without AVX2 (fglm_core.c 507-510); `none` on signed overflow. -/
def multVecPortable (p : Nat) (M : SpMat) (vec res : Nat → Nat) : Option (Nat → Nat) :=
  let res := M.triv.foldl (fun res ip => Function.update res ip.1 (vec ip.2)) res
  M.dense.foldl (fun res d => do
    let res ← res
    let x ← navxRow p d.2.1 vec M.ncols
    some (Function.update res d.1 x)) (some res)

theorem foldl_update_not_mem {α : Type*} (l : List α) (f : α → Nat) (g : α → Nat) (r : Nat → Nat)
    (k : Nat) (h : ∀ a ∈ l, f a ≠ k) :
    l.foldl (fun r a => Function.update r (f a) (g a)) r k = r k := by
  induction l generalizing r with
  | nil => rfl
  | cons a l ih =>
    rw [List.foldl_cons, ih _ (fun b hb => h b (List.mem_cons_of_mem _ hb))]
    rw [Function.update_of_ne]
    exact fun e => h a (List.mem_cons_self) e.symm

theorem foldl_update_mem {α : Type*} (l : List α) (f : α → Nat) (g : α → Nat) (r : Nat → Nat)
    (hnd : (l.map f).Nodup) (a : α) (ha : a ∈ l) :
    l.foldl (fun r a => Function.update r (f a) (g a)) r (f a) = g a := by
  induction l generalizing r with
  | nil => simp at ha
  | cons b l ih =>
    rw [List.map_cons, List.nodup_cons] at hnd
    rw [List.foldl_cons]
    rcases List.mem_cons.mp ha with rfl | ha
    · rw [foldl_update_not_mem]
      · simp
      · intro c hc e
        exact hnd.1 (List.mem_map.mpr ⟨c, hc, e⟩)
    · exact ih _ hnd.2 ha

theorem foldl_update_portable {α : Type*} (l : List α) (f : α → Nat) (g : α → Nat)
    (g' : α → Option Nat) (r : Nat → Nat) (h : ∀ a ∈ l, g' a = some (g a)) :
    l.foldl (fun (r : Option (Nat → Nat)) a => do
      let r ← r
      let x ← g' a
      some (Function.update r (f a) x)) (some r) =
    some (l.foldl (fun r a => Function.update r (f a) (g a)) r) := by
  induction l generalizing r with
  | nil => rfl
  | cons a l ih =>
    rw [List.foldl_cons, List.foldl_cons]
    simp only [Option.bind_eq_bind, Option.bind_some]
    rw [h a (List.mem_cons_self)]
    simp only [Option.bind_some]
    exact ih _ (fun b hb => h b (List.mem_cons_of_mem _ hb))

theorem dot_trailing (m v : Nat → Nat) (n k : Nat) (hk : k ≤ n) (h : ∀ i, n - k ≤ i → i < n → m i = 0) :
    dot m v (n - k) = dot m v n := by
  unfold dot
  have e : n = (n - k) + k := by omega
  conv_rhs => rw [e, sum_range_add]
  rw [Finset.sum_eq_zero (s := range k)]
  · simp
  · intro x hx
    rw [mem_range] at hx
    rw [h _ (by omega) (by omega), Nat.zero_mul]

end Verif.MatVec
