import Verif.ColonStart
import Verif.Props.Arith
import Mathlib.Data.Matrix.Mul
import Mathlib.Data.ZMod.Basic
import Mathlib.NumberTheory.LucasPrimality
import Mathlib.Tactic.NormNum.Prime

/-!
C96: the start vector and the products with the matrix for `msolve -C`.
-/
namespace Verif.Props
open Verif.MatVec Verif.ColonStart

namespace ColonStart

/-- The matrix `A` has the rows that are stored in `M` and `zero`: the rows that copy an entry, the zero rows and the dense rows. -/
def Stores (p : ℕ) (M : SpMat) (zero : List ℕ) (A : Matrix (Fin M.ncols) (Fin M.ncols) (ZMod p)) : Prop :=
  ∀ r : Fin M.ncols, (∃ t ∈ M.triv, t.1 = r ∧ ∀ j : Fin M.ncols, A r j = if (j : ℕ) = t.2 then 1 else 0) ∨ ((r : ℕ) ∈ zero ∧ ∀ j, A r j = 0) ∨
    ∃ d ∈ M.dense, d.1 = r ∧ ∀ j : Fin M.ncols, A r j = (d.2.1 j : ZMod p)

/-- What is stored is a matrix modulo `p`: entries of dense rows are reduced, the number `d.2.2` of columns that are skipped at the end of a dense row is right, and each row is stored once. -/
structure Valid (p : ℕ) (M : SpMat) (zero : List ℕ) : Prop where
  size : M.ncols < 2 ^ 32
  pos : ∀ t ∈ M.triv, t.2 < M.ncols
  dense : ∀ d ∈ M.dense, (∀ i < M.ncols, d.2.1 i < p) ∧ d.2.2 ≤ M.ncols ∧ ∀ i, M.ncols - d.2.2 ≤ i → i < M.ncols → d.2.1 i = 0
  once : (M.triv.map (fun t => t.1) ++ (zero ++ M.dense.map (fun d => d.1))).Nodup

theorem pow_two_pow_mod (p x k : ℕ) : x ^ 2 ^ k % p = (fun y => y * y % p)^[k] (x % p) % p := by
  induction k with
  | zero => simp
  | succ k ih =>
    rw [Function.iterate_succ_apply', pow_succ, pow_mul, pow_two, Nat.mul_mod, ih, ← Nat.mul_mod, Nat.mod_mod]

theorem pow_mod_of {p x k y e : ℕ} (he : e = 2 ^ k) (h : (fun y => y * y % p)^[k] (x % p) % p = y) : x ^ e % p = y := by
  rw [he, pow_two_pow_mod, h]

theorem prime_of_pow {p e f : ℕ} (he : e = 2 ^ 24) (hp : p - 1 = e * 73) (hp2 : (p - 1) / 2 = f * 73) (hp3 : (p - 1) / 73 = e) (h1 : 1 < p)
    (h2 : (3 ^ e % p) ^ 73 % p = 1) (h3 : (3 ^ f % p) ^ 73 % p ≠ 1) (h4 : 3 ^ e % p ≠ 1) : Nat.Prime p := by
  have cast : ∀ a : ℕ, (((3 : ℕ) : ZMod p) ^ a = 1) ↔ 3 ^ a % p = 1 := fun a => by
    rw [← Nat.cast_pow, ← Nat.cast_one, ZMod.natCast_eq_natCast_iff, Nat.ModEq, Nat.mod_eq_of_lt h1]
  have h73 : Nat.Prime 73 := by norm_num
  refine lucas_primality _ ((3 : ℕ) : ZMod p) ?_ fun q hq hd => ?_
  · rw [cast, hp, pow_mul, Nat.pow_mod, h2]
  · rw [hp, he] at hd
    rw [Ne, cast]
    rcases (Nat.Prime.dvd_mul hq).mp hd with hd | hd
    · obtain rfl := (Nat.prime_dvd_prime_iff_eq hq Nat.prime_two).mp (hq.dvd_of_dvd_pow hd)
      rw [hp2, pow_mul, Nat.pow_mod]
      exact h3
    · obtain rfl := (Nat.prime_dvd_prime_iff_eq hq h73).mp hd
      rw [hp3]
      exact h4

theorem prime_1224736769 : Nat.Prime 1224736769 := by
  obtain ⟨e, he⟩ : ∃ e, e = 2 ^ 24 := ⟨_, rfl⟩
  obtain ⟨f, hf⟩ : ∃ f, f = 2 ^ 23 := ⟨_, rfl⟩
  have h24 : 3 ^ e % 1224736769 = 541690310 := pow_mod_of he (by decide +kernel)
  have h23 : 3 ^ f % 1224736769 = 1121663163 := pow_mod_of hf (by decide +kernel)
  refine prime_of_pow (f := f) he (by rw [he]; norm_num) (by rw [hf]; norm_num) (by rw [he]; norm_num) (by norm_num) ?_ ?_ ?_
  · rw [h24]
    decide +kernel
  · rw [h23]
    decide +kernel
  · rw [h24]
    decide +kernel

end ColonStart

open Verif.Props.ColonStart

/-- C96: an entry of the start vector represents the sum of the two random numbers modulo `p`, and is smaller than `2p`. -/
theorem C96_start {p : ℕ} (h0 : 0 < p) (hp : p < 1518500213) (r1 r2 : ℕ) : startEntry p r1 r2 < 2 * p ∧ startEntry p r1 r2 % p = (r1 + r2) % p := by
  have h1 := Nat.mod_lt r1 h0
  have h2 := Nat.mod_lt r2 h0
  unfold startEntry
  rw [Nat.mod_eq_of_lt (by omega)]
  exact ⟨by omega, (Nat.add_mod r1 r2 p).symm⟩

/-- C96: a row of the product by the AVX2 path is right for entries below `2p`, if `p` is at most `2^30`. -/
theorem C96_avx_partial {p : ℕ} (h0 : 0 < p) (hp : p ≤ 2 ^ 30) {m v : ℕ → ℕ} {ncols : ℕ} (hn : ncols < 2 ^ 32) (hm : ∀ i < ncols, m i < p) (hv : ∀ i < ncols, v i < 2 * p) :
    avxRow p (2 ^ 32 % p) (2 * (2 ^ 63 % p) % p) m v ncols = (∑ i ∈ Finset.range ncols, m i * v i) % p :=
  avxRow_bound p ((2 ^ 30 - 1) * (2 ^ 31 - 1)) h0 (by omega) (by norm_num) m v ncols hn fun i hi => Nat.mul_le_mul (by have := hm i hi; omega) (by have := hv i hi; omega)

/-- C96 (finding): for greater primes that `msolve -C` accepts, the product is wrong for some start vectors; all entries of the vector are sums of two values of `rand()` modulo `p`. -/
theorem C96_avx_overflow : ∃ (p : ℕ) (m v r1 r2 : ℕ → ℕ) (ncols : ℕ), Nat.Prime p ∧ p < 1518500213 ∧ (∀ i, m i < p) ∧ (∀ i, r1 i < 2 ^ 31 ∧ r2 i < 2 ^ 31 ∧ v i = startEntry p (r1 i) (r2 i)) ∧
    avxRow p (2 ^ 32 % p) (2 * (2 ^ 63 % p) % p) m v ncols ≠ (∑ i ∈ Finset.range ncols, m i * v i) % p := by
  refine ⟨1224736769, fun _ => 1224736768, fun _ => startEntry 1224736769 1224736768 1224736768, fun _ => 1224736768, fun _ => 1224736768, 32, prime_1224736769, by norm_num, fun _ => by norm_num,
    fun _ => ⟨by norm_num, by norm_num, rfl⟩, ?_⟩
  decide +kernel

/-- C96: without AVX2, a row of the product is right or a signed number overflows. -/
theorem C96_portable_partial {p : ℕ} (h0 : 0 < p) (hp : p < 2 ^ 32) (m v : ℕ → ℕ) (ncols : ℕ) :
    navxRow p m v ncols = none ∨ navxRow p m v ncols = some ((∑ i ∈ Finset.range ncols, m i * v i) % p) := by
  cases h : navxRow p m v ncols with
  | none => exact .inl rfl
  | some x => exact .inr (by rw [navxRow_wide p h0 hp m v ncols x h]; rfl)

/-- C96 (finding): the overflow does happen for some start vectors. -/
theorem C96_portable_overflow : ∃ (p : ℕ) (m v r1 r2 : ℕ → ℕ) (ncols : ℕ), Nat.Prime p ∧ p < 1518500213 ∧ (∀ i, m i < p) ∧ (∀ i, r1 i < 2 ^ 31 ∧ r2 i < 2 ^ 31 ∧ v i = startEntry p (r1 i) (r2 i)) ∧
    navxRow p m v ncols = none := by
  refine ⟨1224736769, fun _ => 1224736768, fun _ => startEntry 1224736769 1224736768 1224736768, fun _ => 1224736768, fun _ => 1224736768, 16, prime_1224736769, by norm_num, fun _ => by norm_num,
    fun _ => ⟨by norm_num, by norm_num, rfl⟩, ?_⟩
  decide +kernel

/-- C96 (finding): the initialization reads behind the start vector exactly if there are fewer than `2*nvars` rows (for at least two variables); the block size is `2*nvars-1` (fglm_core.c 2094). -/
theorem C96_init_read {v : List ℕ} {nvars : ℕ} (h : 2 ≤ nvars) : initRes v (2 * nvars - 1) = none ↔ v.length < 2 * nvars := by
  have key : ∀ (l : List ℕ), (l.mapM fun i => if i = 0 then v[0]? else v[i + 1]?) = none ↔ ∃ i ∈ l, (if i = 0 then v[0]? else v[i + 1]?) = none := by
    intro l
    induction l with
    | nil => simp
    | cons a l ih =>
      rw [List.mapM_cons, List.exists_mem_cons_iff, ← ih]
      cases h1 : (if a = 0 then v[0]? else v[a + 1]?) with
      | none => simp
      | some x =>
        cases h2 : (l.mapM fun i => if i = 0 then v[0]? else v[i + 1]?) with
        | none => simp
        | some y => simp
  unfold initRes
  rw [key]
  constructor
  · rintro ⟨i, hi, he⟩
    rw [List.mem_range] at hi
    split_ifs at he with h0
    · have := List.getElem?_eq_none_iff.mp he
      omega
    · have := List.getElem?_eq_none_iff.mp he
      omega
  · intro hl
    refine ⟨2 * nvars - 2, List.mem_range.mpr (by omega), ?_⟩
    rw [if_neg (by omega), List.getElem?_eq_none (by omega)]

/-- Both cases of `C96_init_read` occur, for two variables. -/
example : initRes [4, 5, 6, 7] 3 = some [4, 6, 7] ∧ initRes [4, 5, 6] 3 = none := by decide

/-- C96: a term of the sequence is right for entries below `2p`. -/
theorem C96_term {p : ℕ} (h0 : 0 < p) (hp : p < 1518500213) {left vec : ℕ → ℕ} {n : ℕ} (hl : ∀ i < n, left i < p) (hv : ∀ i < n, vec i < 2 * p) :
    term p left vec n = (∑ i ∈ Finset.range n, left i * vec i) % p := by
  induction n with
  | zero => simp [term]
  | succ n ih =>
    have h1 := ih (fun i hi => hl i (by omega)) (fun i hi => hv i (by omega))
    have h2 : left n * vec n ≤ 1518500213 * (2 * 1518500213) := Nat.mul_le_mul (by have := hl n (by omega); omega) (by have := hv n (by omega); omega)
    have h3 := Nat.mod_lt (∑ i ∈ Finset.range n, left i * vec i) h0
    rw [term, h1, Nat.mod_eq_of_lt (b := 2 ^ 64) (by omega), Finset.sum_range_succ, Nat.mod_add_mod]

/-- C96: every product, for `p` at most `2^30`: the new vector has entries below `2p` again, and it represents the product of the matrix with the old one modulo `p`. -/
theorem C96_product_partial {p : ℕ} (h0 : 0 < p) (hp : p ≤ 2 ^ 30) {M : SpMat} {zero : List ℕ} (hM : Valid p M zero) {A : Matrix (Fin M.ncols) (Fin M.ncols) (ZMod p)} (hA : Stores p M zero A)
    {vec : ℕ → ℕ} (hv : ∀ i < M.ncols, vec i < 2 * p) (res : ℕ → ℕ) (r : Fin M.ncols) :
    mult p M zero vec res r < 2 * p ∧ (mult p M zero vec res r : ZMod p) = (A.mulVec fun j => (vec j : ZMod p)) r := by
  obtain ⟨n1, n2, n3⟩ := List.nodup_append.mp hM.once
  obtain ⟨n4, n5, n6⟩ := List.nodup_append.mp n2
  unfold mult
  rcases hA r with ⟨t, ht, hr, hrow⟩ | ⟨hz, hrow⟩ | ⟨d, hd, hr, hrow⟩
  · have a1 : ∀ d ∈ M.dense, d.1 ≠ (r : ℕ) := fun d hd e => n3 t.1 (List.mem_map.mpr ⟨t, ht, rfl⟩) d.1 (List.mem_append_right _ (List.mem_map.mpr ⟨d, hd, rfl⟩)) (by rw [e, hr])
    have a2 : ∀ i ∈ zero, i ≠ (r : ℕ) := fun i hi e => n3 t.1 (List.mem_map.mpr ⟨t, ht, rfl⟩) i (List.mem_append_left _ hi) (by rw [e, hr])
    have e : (M.triv.foldl (fun res ip => Function.update res ip.1 (vec ip.2)) res) r = vec t.2 := by
      rw [← hr]
      exact foldl_update_mem M.triv (fun t => t.1) (fun t => vec t.2) res n1 t ht
    rw [foldl_update_not_mem M.dense (fun d => d.1) (fun d => avxRow p (RED32 p) (RED64 p) d.2.1 vec (M.ncols - d.2.2)) _ _ a1, foldl_update_not_mem zero (fun i => i) (fun _ => 0) _ _ a2, e]
    refine ⟨hv _ (hM.pos t ht), ?_⟩
    rw [Matrix.mulVec, dotProduct, Finset.sum_eq_single ⟨t.2, hM.pos t ht⟩]
    · rw [hrow]
      simp
    · intro j _ hj
      rw [hrow, if_neg (fun h => hj (Fin.ext h)), zero_mul]
    · simp
  · have a1 : ∀ d ∈ M.dense, d.1 ≠ (r : ℕ) := fun d hd e => n6 r hz d.1 (List.mem_map.mpr ⟨d, hd, rfl⟩) e.symm
    have e := foldl_update_mem zero (fun i => i) (fun _ => 0) (M.triv.foldl (fun res ip => Function.update res ip.1 (vec ip.2)) res) (by simpa using n4) r hz
    rw [foldl_update_not_mem M.dense (fun d => d.1) (fun d => avxRow p (RED32 p) (RED64 p) d.2.1 vec (M.ncols - d.2.2)) _ _ a1, e]
    refine ⟨by omega, ?_⟩
    rw [Matrix.mulVec, dotProduct, Finset.sum_eq_zero fun j _ => by rw [hrow, zero_mul]]
    simp
  · obtain ⟨b1, b2, b3⟩ := hM.dense d hd
    have hs := hM.size
    have e := foldl_update_mem M.dense (fun d => d.1) (fun d => avxRow p (RED32 p) (RED64 p) d.2.1 vec (M.ncols - d.2.2))
      (zero.foldl (fun res i => Function.update res i 0) (M.triv.foldl (fun res ip => Function.update res ip.1 (vec ip.2)) res)) n5 d hd
    have e2 : avxRow p (RED32 p) (RED64 p) d.2.1 vec (M.ncols - d.2.2) = dot d.2.1 vec (M.ncols - d.2.2) % p :=
      C96_avx_partial h0 hp (by omega) (fun i hi => b1 i (by omega)) (fun i hi => hv i (by omega))
    simp only [hr] at e
    rw [e, e2, dot_trailing _ _ _ _ b2 b3]
    refine ⟨by have := Nat.mod_lt (dot d.2.1 vec M.ncols) h0; omega, ?_⟩
    rw [ZMod.natCast_mod, dot, Nat.cast_sum, Finset.sum_range, Matrix.mulVec, dotProduct]
    exact Finset.sum_congr rfl fun j _ => by rw [hrow, Nat.cast_mul]

/-- C96: all vectors of the sequence, for `p` at most `2^30`: the vector `i` has entries below `2p` and represents the product of the `i`-th power of the matrix with the start vector modulo `p`.

Partial: `msolve -C` accepts primes below 1518500213; see `C96_avx_overflow` for those greater than `2^30`. -/
theorem C96_vectors_partial {p : ℕ} (h0 : 0 < p) (hp : p ≤ 2 ^ 30) {M : SpMat} {zero : List ℕ} (hM : Valid p M zero) {A : Matrix (Fin M.ncols) (Fin M.ncols) (ZMod p)} (hA : Stores p M zero A)
    {v : ℕ → ℕ} (hv : ∀ i < M.ncols, v i < 2 * p) (bufs : ℕ → ℕ → ℕ) (i : ℕ) :
    ∀ r : Fin M.ncols, vecs p M zero v bufs i r < 2 * p ∧ (vecs p M zero v bufs i r : ZMod p) = ((A ^ i).mulVec fun j => (v j : ZMod p)) r := by
  induction i with
  | zero => exact fun r => ⟨hv r r.2, by simp [vecs]⟩
  | succ i ih =>
    intro r
    obtain ⟨h1, h2⟩ := C96_product_partial h0 hp hM hA (fun j hj => (ih ⟨j, hj⟩).1) (bufs i) r
    refine ⟨h1, ?_⟩
    rw [pow_succ', ← Matrix.mulVec_mulVec]
    refine h2.trans ?_
    congr 2
    funext j
    exact (ih j).2

/-- C96: hence all terms of the sequence, for `p` at most `2^30`. -/
theorem C96_terms_partial {p : ℕ} (h0 : 0 < p) (hp : p ≤ 2 ^ 30) {M : SpMat} {zero : List ℕ} (hM : Valid p M zero) {A : Matrix (Fin M.ncols) (Fin M.ncols) (ZMod p)} (hA : Stores p M zero A)
    {v left : ℕ → ℕ} (hv : ∀ i < M.ncols, v i < 2 * p) (hl : ∀ i < M.ncols, left i < p) (bufs : ℕ → ℕ → ℕ) (i : ℕ) :
    term p left (vecs p M zero v bufs i) M.ncols < p ∧
      (term p left (vecs p M zero v bufs i) M.ncols : ZMod p) = ∑ j : Fin M.ncols, (left j : ZMod p) * ((A ^ i).mulVec fun j => (v j : ZMod p)) j := by
  have h := C96_vectors_partial h0 hp hM hA hv bufs i
  rw [C96_term h0 (by omega) hl fun j hj => (h ⟨j, hj⟩).1]
  refine ⟨Nat.mod_lt _ h0, ?_⟩
  rw [ZMod.natCast_mod, Nat.cast_sum, Finset.sum_range]
  exact Finset.sum_congr rfl fun j _ => by rw [Nat.cast_mul, (h j).2]

/-- The hypotheses of `C96_vectors_partial` are met: a row that copies an entry, a zero row and a dense row modulo 7, with a start vector that is not reduced. -/
example : ∃ (M : SpMat) (zero : List ℕ) (A : Matrix (Fin M.ncols) (Fin M.ncols) (ZMod 7)) (v : ℕ → ℕ), Valid 7 M zero ∧ Stores 7 M zero A ∧ (∀ i < M.ncols, v i < 2 * 7) ∧ v 0 = startEntry 7 5 6 ∧ 7 ≤ v 0 := by
  refine ⟨⟨3, [(0, 2)], [(2, fun i => i + 1, 0)]⟩, [1], fun r j => if r = 0 then (if (j : ℕ) = 2 then 1 else 0) else if r = 1 then 0 else ((j : ℕ) + 1 : ℕ), fun _ => 11,
    ⟨by norm_num, by simp, ?_, by decide⟩, ?_, fun _ _ => by norm_num, by decide, by norm_num⟩
  · intro d hd
    obtain rfl : d = (2, fun i => i + 1, 0) := by simpa using hd
    exact ⟨fun i hi => by simp only at hi ⊢; omega, by simp, fun i h1 h2 => by simp only at h1 h2; omega⟩
  · intro r
    match r with
    | ⟨0, _⟩ => exact .inl ⟨(0, 2), by simp, rfl, fun j => rfl⟩
    | ⟨1, _⟩ => exact .inr (.inl ⟨by simp, fun j => rfl⟩)
    | ⟨2, _⟩ => exact .inr (.inr ⟨(2, fun i => i + 1, 0), by simp, rfl, fun j => rfl⟩)

end Verif.Props
