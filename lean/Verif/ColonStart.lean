import Verif.MatVec

/-!
The start vector and the products with the matrix for `msolve -C`.
Source: src/fglm/fglm_core.c 520-575, 1485-1506, 1884-1930.

The entries of the start vector are sums of two remainders that are not reduced, and the rows that only copy an entry do not reduce it either.
-/
namespace Verif.ColonStart
open Verif.MatVec Finset

/-- One entry of `vecinit`, fglm_core.c 1496-1500: `r1`, `r2` are the values of `rand()`; the sum has 32 bits. -/
def startEntry (p r1 r2 : ℕ) : ℕ := (r1 % p + r2 % p) % 2 ^ 32

/-- The first block of `res`, fglm_core.c 1501-1504, from the start vector `v`; `none` is a read outside of `v`. -/
def initRes (v : List ℕ) (blockSize : ℕ) : Option (List ℕ) := (List.range blockSize).mapM fun i => if i = 0 then v[0]? else v[i + 1]?

/-- `sparse_mat_fglm_colon_mult_vec`, fglm_core.c 525-573 (AVX2 branch): the array `res` after the rows that copy an entry, the zero rows (`zero` is `zero_idx`) and the dense rows were stored. -/
def mult (p : ℕ) (M : SpMat) (zero : List ℕ) (vec res : ℕ → ℕ) : ℕ → ℕ :=
  let res := M.triv.foldl (fun res ip => Function.update res ip.1 (vec ip.2)) res
  let res := zero.foldl (fun res i => Function.update res i 0) res
  M.dense.foldl (fun res d => Function.update res d.1 (avxRow p (RED32 p) (RED64 p) d.2.1 vec (M.ncols - d.2.2))) res

/-- The vectors of `guess_sequence_colon`, fglm_core.c 1901-1913: after every product the two buffers change their roles; `bufs i` is what the other buffer contained before the product `i`. -/
def vecs (p : ℕ) (M : SpMat) (zero : List ℕ) (v : ℕ → ℕ) (bufs : ℕ → ℕ → ℕ) : ℕ → ℕ → ℕ
  | 0 => v
  | i + 1 => mult p M zero (vecs p M zero v bufs i) (bufs i)

/-- One term of the sequence, fglm_core.c 1884-1886, 1915-1920: the sum over the columns, with 64 bits. -/
def term (p : ℕ) (left vec : ℕ → ℕ) : ℕ → ℕ
  | 0 => 0
  | n + 1 => (term p left vec n + left n * vec n) % 2 ^ 64 % p

/-! ### The AVX2 path, for a bound on the products -/

theorem blockLane_bound (B : Nat) (m v : Nat → Nat) (b l : Nat) (hl : l < 4) (h8 : 8 * B < 2 ^ 64)
    (hB : ∀ i < 32 * (b + 1), m i * v i ≤ B) : blockLane m v b l = blockLaneN m v b l := by
  have hq : ∀ k < 32, m (32 * b + k) * v (32 * b + k) ≤ B := fun k hk => hB _ (by omega)
  unfold blockLane blockLaneN
  apply Nat.mod_eq_of_lt
  have a1 := hq (2 * l) (by omega)
  have a2 := hq (2 * l + 1) (by omega)
  have a3 := hq (8 + 2 * l) (by omega)
  have a4 := hq (8 + 2 * l + 1) (by omega)
  have a5 := hq (16 + 2 * l) (by omega)
  have a6 := hq (16 + 2 * l + 1) (by omega)
  have a7 := hq (24 + 2 * l) (by omega)
  have a8 := hq (24 + 2 * l + 1) (by omega)
  linarith

theorem accLanes_bound (B : Nat) (m v : Nat → Nat) (l : Nat) (hl : l < 4)
    (h8 : 8 * B < 2 ^ 64) :
    ∀ q, q < 2 ^ 27 → (∀ i < 32 * q, m i * v i ≤ B) →
      (accLanes m v l q).1 ≤ q * (2 ^ 32 - 1) ∧ (accLanes m v l q).2 ≤ q * (2 ^ 32 - 1) ∧
      (accLanes m v l q).1 + 2 ^ 32 * (accLanes m v l q).2 =
        ∑ b ∈ range q, blockLaneN m v b l := by
  intro q
  induction q with
  | zero => intros; simp [accLanes]
  | succ q ih =>
    intro hq hB
    obtain ⟨h1, h2, h3⟩ := ih (by omega) (fun i hi => hB i (by omega))
    have hb := blockLane_bound B m v q l hl h8 hB
    rw [sum_range_succ, ← h3, ← hb]
    have hb64 : blockLane m v q l < 2 ^ 64 := Nat.mod_lt _ (by norm_num)
    simp only [accLanes]
    generalize blockLane m v q l = r at *
    generalize accLanes m v l q = a at *
    have e1 : (a.1 + r % 2 ^ 32) % 2 ^ 64 = a.1 + r % 2 ^ 32 := Nat.mod_eq_of_lt (by omega)
    have e2 : (a.2 + r / 2 ^ 32) % 2 ^ 64 = a.2 + r / 2 ^ 32 := Nat.mod_eq_of_lt (by omega)
    rw [e1, e2]
    refine ⟨by omega, by omega, by omega⟩

theorem avxRow_bound (p B : Nat) (hp0 : 0 < p) (hp : p < 2 ^ 32) (h8 : 8 * B < 2 ^ 64)
    (m v : Nat → Nat) (ncols : Nat) (hn : ncols < 2 ^ 32)
    (hB : ∀ i < ncols, m i * v i ≤ B) :
    avxRow p (RED32 p) (RED64 p) m v ncols = dot m v ncols % p := by
  have hq : ncols / 32 < 2 ^ 27 := by omega
  have hB' : ∀ i < 32 * (ncols / 32), m i * v i ≤ B := fun i hi => hB i (by omega)
  have L : ∀ l < 4, redLane p (RED32 p) (RED64 p) (accLanes m v l (ncols / 32)) =
      (∑ b ∈ range (ncols / 32), blockLaneN m v b l) % p := by
    intro l hl
    obtain ⟨h1, h2, h3⟩ := accLanes_bound B m v l hl h8 _ hq hB'
    rw [redLane_spec p hp0 hp _ (by omega) (by omega), h3]
  unfold avxRow
  simp only [L 0 (by norm_num), L 1 (by norm_num), L 2 (by norm_num), L 3 (by norm_num)]
  have hs := lanes_sum m v (ncols / 32)
  generalize (∑ b ∈ range (ncols / 32), blockLaneN m v b 0) = s0 at *
  generalize (∑ b ∈ range (ncols / 32), blockLaneN m v b 1) = s1 at *
  generalize (∑ b ∈ range (ncols / 32), blockLaneN m v b 2) = s2 at *
  generalize (∑ b ∈ range (ncols / 32), blockLaneN m v b 3) = s3 at *
  have l0 : s0 % p < p := Nat.mod_lt _ hp0
  have l1 : s1 % p < p := Nat.mod_lt _ hp0
  have l2 : s2 % p < p := Nat.mod_lt _ hp0
  have l3 : s3 % p < p := Nat.mod_lt _ hp0
  rw [Nat.mod_eq_of_lt (show s0 % p + s1 % p < 2 ^ 64 by omega),
    Nat.mod_eq_of_lt (show s0 % p + s1 % p + s2 % p < 2 ^ 64 by omega),
    Nat.mod_eq_of_lt (show s0 % p + s1 % p + s2 % p + s3 % p < 2 ^ 64 by omega)]
  have c0 : (s0 % p + s1 % p + s2 % p + s3 % p) % p ≡ dot m v (32 * (ncols / 32)) [MOD p] := by
    rw [← hs]
    exact (Nat.mod_modEq _ _).trans
      ((((Nat.mod_modEq _ _).add (Nat.mod_modEq _ _)).add (Nat.mod_modEq _ _)).add
        (Nat.mod_modEq _ _))
  have c1 : (∑ k ∈ range (ncols % 32),
      (m (32 * (ncols / 32) + k) * v (32 * (ncols / 32) + k)) % p) ≡
      ∑ k ∈ range (ncols % 32), m (32 * (ncols / 32) + k) * v (32 * (ncols / 32) + k) [MOD p] := by
    unfold Nat.ModEq
    rw [← sum_nat_mod]
  have hc := c0.add c1
  have : dot m v (32 * (ncols / 32)) +
      ∑ k ∈ range (ncols % 32), m (32 * (ncols / 32) + k) * v (32 * (ncols / 32) + k) =
      dot m v ncols := by
    unfold dot
    rw [← sum_range_add (fun i => m i * v i), Nat.div_add_mod]
  rw [this] at hc
  exact hc

/-! ### The portable path, for entries below `2p` -/

theorem i64_eq {x y : ℤ} (h : i64 x = some y) : y = x := by
  unfold i64 at h
  split_ifs at h
  exact (Option.some.inj h).symm

theorem navxStep_wide {p : ℕ} {r : ℤ} {a b : ℕ} {s : ℤ} (h : navxStep p (some r) (a, b) = some s) : (0 ≤ r - a * b ∧ s = r - a * b) ∨ (r - a * b < 0 ∧ s = r - a * b + p * p) := by
  unfold navxStep at h
  rw [Option.bind_some, Option.bind_eq_some_iff] at h
  obtain ⟨t, h1, h⟩ := h
  rw [Option.bind_eq_some_iff] at h
  obtain ⟨u, h2, h⟩ := h
  rw [i64_eq h1] at h2
  have hu := i64_eq h2
  simp only at hu
  split_ifs at h with hc
  · exact .inr ⟨by rw [← hu]; exact hc, by rw [i64_eq h, hu]⟩
  · exact .inl ⟨by rw [← hu]; exact not_lt.mp hc, by rw [← Option.some.inj h, hu]⟩

theorem navx_fold_none (p : ℕ) (l : List (ℕ × ℕ)) : l.foldl (navxStep p) none = none := by
  induction l with
  | nil => rfl
  | cons a l ih => exact ih

/-- If the accumulator does not leave `int64_t`, it is right, whatever the entries of the vector are. -/
theorem navx_fold_wide (p : ℕ) (hp0 : 0 < p) (m v : ℕ → ℕ) : ∀ (n : ℕ) (r : ℤ), ((List.range n).map (fun i => (m i, v i))).foldl (navxStep p) (some 0) = some r →
    r < (p : ℤ) * p ∧ (p : ℤ) ∣ r + dot m v n := by
  intro n
  induction n with
  | zero =>
    intro r h
    rw [List.range_zero, List.map_nil, List.foldl_nil] at h
    obtain rfl := Option.some.inj h
    exact ⟨by positivity, by simp [dot]⟩
  | succ n ih =>
    intro r h
    rw [List.range_succ, List.map_append, List.foldl_append] at h
    cases h' : ((List.range n).map (fun i => (m i, v i))).foldl (navxStep p) (some 0) with
    | none =>
      rw [h', navx_fold_none] at h
      exact absurd h (by simp)
    | some r' =>
      obtain ⟨h1, h2⟩ := ih r' h'
      rw [h', List.map_cons, List.map_nil, List.foldl_cons, List.foldl_nil] at h
      have hd : (dot m v (n + 1) : ℤ) = dot m v n + (m n : ℤ) * v n := by simp [dot, sum_range_succ]
      have hq : 0 ≤ (m n : ℤ) * v n := by positivity
      rw [hd]
      rcases navxStep_wide h with ⟨-, rfl⟩ | ⟨h3, rfl⟩
      · exact ⟨by linarith, by convert h2 using 1; ring⟩
      · refine ⟨by linarith, ?_⟩
        have e : r' - (m n : ℤ) * v n + p * p + (dot m v n + m n * v n) = r' + dot m v n + p * p := by ring
        rw [e]
        exact dvd_add h2 (Dvd.intro _ rfl)

theorem navxRow_wide (p : ℕ) (hp0 : 0 < p) (hp : p < 2 ^ 32) (m v : ℕ → ℕ) (n x : ℕ) (h : navxRow p m v n = some x) : x = dot m v n % p := by
  unfold navxRow at h
  simp only [Option.bind_eq_bind, Option.bind_eq_some_iff] at h
  obtain ⟨-, -, acc, h2, r, h3, h⟩ := h
  obtain ⟨h6, h7⟩ := navx_fold_wide p hp0 m v n acc h2
  rw [i64_eq h3] at h
  obtain ⟨r', h4, h5⟩ : ∃ r', (if -acc < 0 then i64 (-acc + (p : ℤ) * p) else some (-acc)) = some r' ∧ some ((Int.tmod r' p) % 2 ^ 32).toNat = some x := by
    split_ifs at h ⊢ with hc
    · rwa [Option.bind_eq_some_iff] at h
    · exact ⟨_, rfl, h⟩
  have key : 0 ≤ r' ∧ (p : ℤ) ∣ r' - dot m v n := by
    split_ifs at h4 with hc
    · rw [i64_eq h4]
      refine ⟨by linarith, ?_⟩
      have e : -acc + (p : ℤ) * p - dot m v n = -(acc + dot m v n) + p * p := by ring
      rw [e]
      exact dvd_add ((Int.dvd_neg).mpr h7) (Dvd.intro _ rfl)
    · rw [← Option.some.inj h4]
      refine ⟨not_lt.mp hc, ?_⟩
      have e : -acc - (dot m v n : ℤ) = -(acc + dot m v n) := by ring
      rw [e]
      exact (Int.dvd_neg).mpr h7
  obtain ⟨k, rfl⟩ := Int.eq_ofNat_of_zero_le key.1
  have hk : k % p = dot m v n % p := by
    have : (dot m v n : ℤ) ≡ k [ZMOD p] := (Int.modEq_iff_dvd).mpr key.2
    exact (Int.natCast_modEq_iff.mp this).symm
  have hlt : k % p < p := Nat.mod_lt _ hp0
  have e : Int.tmod (k : ℤ) p = ((k % p : ℕ) : ℤ) := by
    rw [Int.tmod_eq_emod_of_nonneg (by omega)]; simp
  rw [← Option.some.inj h5, ← hk, e]
  omega

end Verif.ColonStart
