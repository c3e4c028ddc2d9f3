import Verif.USign
import Mathlib.Algebra.Polynomial.Reverse
import Mathlib.Data.Nat.Factorial.Basic

/-!
The Descartes test on `]0, 1[`: sign variations of `(X + 1)^deg * P(1 / (X + 1))`, first with truncated
coefficients, then exactly.
Source: src/usolve/descartes.c 59-138, src/usolve/taylor_shift.c 320-432.
-/
namespace Verif.UDescartes
open Verif.UPoly Verif.UTaylor Verif.USign Polynomial

/-- taylor_shift.c 385-398 and 411-421: two neighbouring blocks are combined (no content is removed). -/
def combineT (tab : ℕ → ℤ) (sz o nd : ℕ) (f : ℕ → ℤ) : ℕ → ℤ :=
  let t := convMul tab sz (sub f (o + sz)) nd
  fun i =>
    if o ≤ i ∧ i < o + sz then f i + t (i - o)
    else if o + sz ≤ i ∧ i ≤ o + sz + nd then t (i - o)
    else f i

/-- taylor_shift.c 374-401: one level; the blocks are treated from the last one to the first one. -/
def levelT (tab : ℕ → ℤ) (sz nb deg : ℕ) (f : ℕ → ℤ) : ℕ → ℤ :=
  (List.range (nb / 2)).reverse.foldl
    (fun f c => combineT tab sz (2 * c * sz) (if c + 1 = nb / 2 then deg - (nb - 1) * sz else sz - 1) f) f

/-- taylor_shift.c 363-407: the loop over the levels. -/
def levelsT (tab : ℕ → ℕ → ℤ) (deg : ℕ) : ℕ → ℕ → ℕ → ℕ → (ℕ → ℤ) → (ℕ → ℤ) × ℕ
  | 0, _, sz, _, f => (f, sz)
  | n + 1, i, sz, nb, f => levelsT tab deg n (i + 1) (2 * sz) (nb / 2) (levelT (tab i) sz nb deg f)

/-- The naive shift of the block of degree `d` that begins at `o`. -/
def blockNaive (o d : ℕ) (f : ℕ → ℤ) : ℕ → ℤ := splice f o d (naive (sub f o) d)

/-- taylor_shift.c 346-356: all blocks are shifted, the last one first (the others in parallel in the
code; here in increasing order). -/
def blocksT (deg sz nb : ℕ) (f : ℕ → ℤ) : ℕ → ℤ :=
  (List.range (nb - 1)).foldl (fun f i => blockNaive (i * sz) (sz - 1) f)
    (blockNaive ((nb - 1) * sz) (deg - (nb - 1) * sz) f)

/-- taylor_shift.c 320-432 (`taylorshift1_dac_wsgnvar`). The outer `none` stands for a naive shift of degree
0 (which does not end), the inner one for the value `-1`. -/
def wsgnvar (tab : ℕ → ℕ → ℤ) (f : ℕ → ℤ) (deg sz : ℕ) : Option (Option ℕ) :=
  let nb := numBlocks deg sz
  if nb ≤ 1 then some none
  else if sz ≤ 1 then none
  else
    let f1 := blocksT deg sz nb f
    if variationsBsize f1 deg deg = some 0 then some (some 0)
    else
      let np := Nat.log 2 nb
      let r := levelsT tab deg (np - 1) 0 sz nb f1
      some (variationsBsize (combineT (tab (np - 1)) r.2 0 (deg - r.2) r.1) deg deg)

/-- descartes.c 62-65: the reversed polynomial. -/
def reversed (f : ℕ → ℤ) (deg : ℕ) : ℕ → ℤ := fun i => f (deg - i)

/-- descartes.c 97-113: the number of bits that are dropped. The difference is computed modulo `2^64`; if it
is negative the result exceeds `lc` (bit sizes and degrees are below `2^62`: simplification). -/
def truncBits (nbits deg lc : ℕ) : ℕ :=
  if nbits < 2 * (deg + 1) then lc - 1
  else if lc ≤ nbits - 2 * (deg + 1) then lc - 1
  else nbits - 2 * (deg + 1)

/-- descartes.c 90-130 (`descartes_truncate`). -/
def truncate (tab : ℕ → ℕ → ℤ) (f : ℕ → ℤ) (deg nbits sz : ℕ) : Option (Option ℕ) :=
  let t := truncBits nbits deg (bitSize (f deg))
  wsgnvar tab (fun i => (f i).tdiv (2 ^ t)) deg sz

/-- descartes.c 59-87 (`descartes`). `none`: the function does not end or reads outside of its array. -/
def descartes (tab : ℕ → ℕ → ℤ) (f : ℕ → ℤ) (deg sz : ℕ) : Option ℕ :=
  (truncate tab (reversed f deg) deg (maxBsize f deg) sz).bind fun r =>
    match r with
    | some nb => some nb
    | none => (dac tab (reversed f deg) deg sz).bind fun g => variations g deg

/-! ### the blockwise shift equals the one with content removal -/

theorem combineT_poly (tab : ℕ → ℤ) (sz o nd : ℕ) (f : ℕ → ℤ) (hsz : 1 ≤ sz) :
    toPoly (sub (combineT tab sz o nd f) o) (sz + nd)
      = toPoly (sub f o) (sz - 1) + toPoly tab sz * toPoly (sub f (o + sz)) nd := by
  ext j
  rw [coeff_add, ← convMul_eq, coeff_toPoly, coeff_toPoly]
  have hs : ∀ g : ℕ → ℤ, sub g o j = g (o + j) := fun _ => rfl
  rw [hs, hs]
  unfold combineT
  by_cases h1 : j < sz
  · rw [if_pos (show j ≤ sz + nd by omega), if_pos (by omega), if_pos (by omega), Nat.add_sub_cancel_left]
  · rw [if_neg (show ¬ j ≤ sz - 1 by omega)]
    by_cases h2 : j ≤ sz + nd
    · rw [if_pos h2, if_neg (by omega), if_pos (by omega), Nat.add_sub_cancel_left, zero_add]
    · rw [if_neg h2, zero_add, convMul_eq]
      symm
      apply coeff_eq_zero_of_natDegree_lt
      have a1 := natDegree_toPoly_le tab sz
      have a2 := natDegree_toPoly_le (sub f (o + sz)) nd
      have a3 := natDegree_mul_le (p := toPoly tab sz) (q := toPoly (sub f (o + sz)) nd)
      omega

theorem combineT_outside (tab : ℕ → ℤ) (sz o nd : ℕ) (f : ℕ → ℤ) (x : ℕ)
    (hx : ¬ (o ≤ x ∧ x ≤ o + sz + nd)) : combineT tab sz o nd f x = f x := by
  unfold combineT
  rw [if_neg (by omega), if_neg (by omega)]

theorem combineT_eq (tab : ℕ → ℤ) (sz o nd : ℕ) (f : ℕ → ℤ) (hsz : 1 ≤ sz) :
    combineT tab sz o nd f = combine tab sz o nd f := by
  funext x
  by_cases hx : o ≤ x ∧ x ≤ o + sz + nd
  · have := (combineT_poly tab sz o nd f hsz).trans (combine_poly tab sz o nd f hsz).symm
    have := toPoly_inj this (x - o) (by omega)
    unfold sub at this
    rwa [show o + (x - o) = x by omega] at this
  · rw [combineT_outside _ _ _ _ _ _ hx, combine_outside _ _ _ _ _ _ hx]

theorem fold_regions_perm {l l' : List ℕ} (hp : ∀ t, t ∈ l ↔ t ∈ l') (g : ℕ → (ℕ → ℤ) → ℕ → ℤ) (lo hi : ℕ → ℕ)
    (hout : ∀ t f x, ¬ (lo t ≤ x ∧ x ≤ hi t) → g t f x = f x)
    (hloc : ∀ t f f', (∀ x, lo t ≤ x → x ≤ hi t → f x = f' x) →
      ∀ x, lo t ≤ x → x ≤ hi t → g t f x = g t f' x)
    (hdisj : l.Pairwise fun a b => hi a < lo b ∨ hi b < lo a)
    (hdisj' : l'.Pairwise fun a b => hi a < lo b ∨ hi b < lo a) (f : ℕ → ℤ) :
    l.foldl (fun f t => g t f) f = l'.foldl (fun f t => g t f) f := by
  obtain ⟨h1, h2⟩ := fold_regions g lo hi hout hloc hdisj f
  obtain ⟨h1', h2'⟩ := fold_regions g lo hi hout hloc hdisj' f
  funext x
  by_cases hx : ∃ t ∈ l, lo t ≤ x ∧ x ≤ hi t
  · obtain ⟨t, ht, hx1, hx2⟩ := hx
    rw [h1 t ht x hx1 hx2, h1' t ((hp t).mp ht) x hx1 hx2]
  · push Not at hx
    rw [h2 x fun t ht h => absurd h.2 (not_le.mpr (hx t ht h.1)),
      h2' x fun t ht h => absurd h.2 (not_le.mpr (hx t ((hp t).mpr ht) h.1))]

theorem levelT_eq (tab : ℕ → ℤ) (sz m deg : ℕ) (f : ℕ → ℤ) (hsz : 1 ≤ sz) :
    levelT tab sz (2 * m) deg f = level tab sz (2 * m) deg f := by
  unfold levelT level
  rw [Nat.mul_div_cancel_left m (by omega)]
  simp only [combineT_eq _ _ _ _ _ hsz]
  have hd : (List.range m).Pairwise fun a b =>
      (2 * a * sz + sz + if a + 1 = m then deg - (2 * m - 1) * sz else sz - 1) < 2 * b * sz ∨
      (2 * b * sz + sz + if b + 1 = m then deg - (2 * m - 1) * sz else sz - 1) < 2 * a * sz := by
    refine List.Pairwise.imp_of_mem ?_ (List.pairwise_lt_range)
    intro a b ha hb hab
    have := List.mem_range.mp hb
    left
    rw [if_neg (by omega)]
    have : 2 * (a + 1) * sz ≤ 2 * b * sz := Nat.mul_le_mul_right _ (by omega)
    have e : 2 * (a + 1) * sz = 2 * a * sz + sz + sz := by ring
    omega
  refine fold_regions_perm (l := (List.range m).reverse) (l' := List.range m) (by simp)
    (fun c f => combine tab sz (2 * c * sz) (if c + 1 = m then deg - (2 * m - 1) * sz else sz - 1) f)
    (fun c => 2 * c * sz) (fun c => 2 * c * sz + sz + if c + 1 = m then deg - (2 * m - 1) * sz else sz - 1)
    (fun t f x hx => combine_outside _ _ _ _ _ _ hx)
    (fun t f f' h x h1 h2 => combine_local _ _ _ _ f f' hsz h x h1 h2) ?_ hd f
  rw [List.pairwise_reverse]
  exact hd.imp fun h => h.symm

theorem levelsT_eq (tab : ℕ → ℕ → ℤ) (deg n : ℕ) : ∀ (i sz : ℕ) (f : ℕ → ℤ), 1 ≤ sz →
    levelsT tab deg n i sz (2 ^ (n + 1)) f = levels tab deg n i sz (2 ^ (n + 1)) f := by
  induction n with
  | zero => intros; rfl
  | succ n ih =>
    intro i sz f hsz
    simp only [levelsT, levels]
    have hp : (2 : ℕ) ^ (n + 1 + 1) / 2 = 2 ^ (n + 1) := by rw [pow_succ _ (n + 1)]; omega
    rw [hp, ih _ _ _ (by omega), pow_succ' 2 (n + 1), levelT_eq _ _ _ _ _ hsz]

theorem levels_sz (tab : ℕ → ℕ → ℤ) (deg n : ℕ) : ∀ (i sz nb : ℕ) (f : ℕ → ℤ),
    (levels tab deg n i sz nb f).2 = sz * 2 ^ n := by
  induction n with
  | zero => intros; simp [levels]
  | succ n ih => intro i sz nb f; simp only [levels]; rw [ih]; ring

theorem blockNaive_eq (o d : ℕ) (f : ℕ → ℤ) : blockNaive o d f = blockShift o d f := by
  funext x
  by_cases hx : o ≤ x ∧ x ≤ o + d
  · have h1 : toPoly (sub (blockNaive o d f) o) d = (toPoly (sub f o) d).comp (X + 1) := by
      rw [← naive_poly]
      refine toPoly_congr fun i hi => ?_
      unfold blockNaive splice sub
      beta_reduce
      rw [if_pos (by omega), Nat.add_sub_cancel_left]
    have := h1.trans (blockShift_poly o d f).symm
    have := toPoly_inj this (x - o) (by omega)
    unfold sub at this
    rwa [show o + (x - o) = x by omega] at this
  · rw [blockShift_outside _ _ _ _ hx]
    unfold blockNaive splice
    rw [if_neg hx]

/-- The blocks of the array after the first loop. -/
theorem blocksT_region (deg sz nb : ℕ) (f : ℕ → ℤ) (hsz : 1 ≤ sz) (hnb : 1 ≤ nb)
    (j : ℕ) (hj : j < nb) :
    toPoly (sub (blocksT deg sz nb f) (j * sz)) (bd deg sz nb j)
      = (toPoly (sub f (j * sz)) (bd deg sz nb j)).comp (X + 1) := by
  rw [← blockShift_poly]
  refine sub_congr fun x h1 h2 => ?_
  have hl : ∀ t, t ∈ (nb - 1) :: List.range (nb - 1) ↔ t < nb := by
    intro t; simp only [List.mem_cons, List.mem_range]; omega
  have hg : blocksT deg sz nb f = ((nb - 1) :: List.range (nb - 1)).foldl
      (fun f t => blockShift (t * sz) (bd deg sz nb t) f) f := by
    unfold blocksT
    rw [List.foldl_cons]
    have e : bd deg sz nb (nb - 1) = deg - (nb - 1) * sz := by unfold bd; rw [if_neg (by omega)]
    rw [e, blockNaive_eq]
    refine List.foldl_ext _ _ _ fun a b hb => ?_
    have := List.mem_range.mp hb
    rw [blockNaive_eq]
    unfold bd
    rw [if_pos (by omega)]
  rw [hg]
  have hord : ∀ a b, a < b → b < nb → a * sz + bd deg sz nb a < b * sz := by
    intro a b hab hb
    have : (a + 1) * sz ≤ b * sz := Nat.mul_le_mul_right _ hab
    rw [Nat.succ_mul] at this
    unfold bd
    rw [if_pos (by omega)]
    omega
  refine (fold_regions (l := (nb - 1) :: List.range (nb - 1)) (fun t f => blockShift (t * sz) (bd deg sz nb t) f)
    (fun t => t * sz) (fun t => t * sz + bd deg sz nb t)
    (fun t f x hx => blockShift_outside _ _ _ _ hx)
    (fun t f f' h x h1 h2 => blockShift_local _ _ f f' h x h1 h2) ?_ f).1 j ((hl j).mpr hj) x h1 h2
  rw [List.pairwise_cons]
  refine ⟨fun a ha => Or.inr (hord a (nb - 1) (List.mem_range.mp ha) (by omega)), ?_⟩
  refine List.Pairwise.imp_of_mem ?_ (List.pairwise_lt_range)
  intro a b ha hb hab
  have := List.mem_range.mp hb
  exact Or.inl (hord a b hab (by omega))

theorem blocksT_Q (deg sz nb : ℕ) (f : ℕ → ℤ) (hsz : 1 ≤ sz) (hnb : 1 ≤ nb) (h : (nb - 1) * sz ≤ deg) :
    Q (blocksT deg sz nb f) deg sz nb = (toPoly f deg).comp (X + 1) := by
  rw [← blocks_sum f deg sz nb hsz hnb h]
  unfold Q
  simp only [sum_comp, mul_comp, pow_comp, X_comp]
  refine Finset.sum_congr rfl fun j hj => ?_
  rw [blocksT_region deg sz nb f hsz hnb j (Finset.mem_range.mp hj)]

/-! ### precision -/

theorem choose_le_two_pow_mul (L n k : ℕ) (hn : n ≤ 2 ^ (L + 1)) : n.choose k ≤ 2 ^ (k * L + 1) := by
  have h1 : n.choose k * k.factorial ≤ n ^ k := by
    rw [mul_comm, ← Nat.descFactorial_eq_factorial_mul_choose]; exact Nat.descFactorial_le_pow n k
  have h2 : 2 ^ k ≤ 2 * k.factorial := by
    induction k with
    | zero => simp
    | succ k ih =>
      have ih := ih (by rw [mul_comm, ← Nat.descFactorial_eq_factorial_mul_choose]; exact Nat.descFactorial_le_pow n k)
      rcases Nat.eq_zero_or_pos k with rfl | hk
      · simp
      · rw [Nat.factorial_succ, pow_succ]
        nlinarith [Nat.factorial_pos k]
  have h3 : n ^ k ≤ (2 ^ (L + 1)) ^ k := Nat.pow_le_pow_left hn k
  have h4 : ((2 : ℕ) ^ (L + 1)) ^ k = 2 ^ (k * L) * 2 ^ k := by rw [← pow_mul, ← pow_add]; congr 1; ring
  have h5 : n.choose k * k.factorial ≤ 2 ^ (k * L + 1) * k.factorial := by
    calc _ ≤ 2 ^ (k * L) * 2 ^ k := by rw [← h4]; exact h1.trans h3
      _ ≤ 2 ^ (k * L) * (2 * k.factorial) := Nat.mul_le_mul_left _ h2
      _ = _ := by rw [pow_succ]; ring
  exact Nat.le_of_mul_le_mul_right h5 (Nat.factorial_pos k)

/-- Number of unreliable bits in `utils.c`, coefficient 0 included. -/
def loss (deg L i : ℕ) : ℕ := if i = 0 then L + 1 else lossBits deg deg L i

theorem choose_le_loss {deg d t i : ℕ} (htd : t ≤ d) (hti : t ≤ i) (hd : d - t ≤ deg - i)
    (hi : i ≤ deg) : (d + 1).choose (t + 1) ≤ 2 ^ loss deg (Nat.log 2 deg) i := by
  set L := Nat.log 2 deg with hL
  have hdd : d ≤ deg := by omega
  have hn : d + 1 ≤ 2 ^ (L + 1) := by
    have := Nat.lt_pow_succ_log_self (b := 2) (by omega) deg
    rw [← hL] at this
    omega
  have b1 : (d + 1).choose (t + 1) ≤ 2 ^ ((t + 1) * L + 1) := choose_le_two_pow_mul L _ _ hn
  unfold loss
  split
  · rename_i h0
    have : t = 0 := by omega
    subst this
    simpa using hn
  · unfold lossBits
    rcases min_choice ((deg - i + 1) * L + 1) (min deg ((i + 1) * L + 1)) with h | h
    · rw [h]
      have h1 : (d + 1).choose (t + 1) = (d + 1).choose (d - t) := by
        rw [← Nat.choose_symm (show t + 1 ≤ d + 1 by omega)]; congr 1; omega
      rw [h1]
      refine (choose_le_two_pow_mul L _ _ hn).trans (Nat.pow_le_pow_right (by omega) ?_)
      have : (d - t) * L ≤ (deg - i + 1) * L := Nat.mul_le_mul_right _ (by omega)
      omega
    · rw [h]
      rcases min_choice deg ((i + 1) * L + 1) with h | h
      · rw [h]
        refine le_trans ?_ (Nat.pow_le_pow_right (n := 2) (by omega) hdd)
        rw [Nat.choose_succ_succ]
        calc d.choose t + d.choose (t + 1) = ∑ m ∈ ({t, t + 1} : Finset ℕ), d.choose m := by simp
          _ ≤ ∑ m ∈ Finset.range (d + 2), d.choose m := by
            refine Finset.sum_le_sum_of_subset ?_
            intro m hm
            simp only [Finset.mem_insert, Finset.mem_singleton] at hm
            rw [Finset.mem_range]; omega
          _ = 2 ^ d := by rw [Finset.sum_range_succ, Nat.sum_range_choose, Nat.choose_succ_self, add_zero]
      · rw [h]
        refine b1.trans (Nat.pow_le_pow_right (by omega) ?_)
        have : (t + 1) * L ≤ (i + 1) * L := Nat.mul_le_mul_right _ (by omega)
        omega

theorem coeff_shift (f : ℕ → ℤ) (d j : ℕ) :
    ((toPoly f d).comp (X + 1)).coeff j = ∑ m ∈ Finset.range (d + 1), f m * (m.choose j : ℤ) := by
  unfold toPoly
  rw [sum_comp, finsetSum_coeff]
  refine Finset.sum_congr rfl fun m _ => ?_
  rw [mul_comp, C_comp, pow_comp, X_comp, coeff_C_mul, coeff_X_add_one_pow]

theorem coeff_shift_top (f : ℕ → ℤ) (d : ℕ) : ((toPoly f d).comp (X + 1)).coeff d = f d := by
  rw [coeff_shift, Finset.sum_range_succ, Nat.choose_self, Finset.sum_eq_zero, zero_add, Nat.cast_one, mul_one]
  intro m hm
  rw [Nat.choose_eq_zero_of_lt (Finset.mem_range.mp hm)]; simp

theorem coeff_shift_lt (r : ℕ → ℤ) (d t : ℕ) (B : ℤ) (hr : ∀ m ≤ d, |r m| < B) (htd : t ≤ d) :
    |((toPoly r d).comp (X + 1)).coeff t| < B * ((d + 1).choose (t + 1) : ℤ) := by
  rw [coeff_shift]
  have hsum : ∑ m ∈ Finset.range (d + 1), (m.choose t : ℤ) = ((d + 1).choose (t + 1) : ℤ) := by
    norm_cast
    clear hr htd
    induction d with
    | zero => simp [Nat.choose_succ_succ]
    | succ d ih => rw [Finset.sum_range_succ, ih, Nat.choose_succ_succ (d + 1), add_comm]
  rw [← hsum, Finset.mul_sum]
  refine (Finset.abs_sum_le_sum_abs _ _).trans_lt ?_
  refine Finset.sum_lt_sum (fun m hm => ?_) ⟨d, by simp, ?_⟩
  · rw [abs_mul, Nat.abs_cast]
    exact mul_le_mul_of_nonneg_right (hr m (by have := Finset.mem_range.mp hm; omega)).le (by positivity)
  · rw [abs_mul, Nat.abs_cast]
    exact mul_lt_mul_of_pos_right (hr d le_rfl) (by exact_mod_cast Nat.choose_pos htd)

theorem bitSize_pow_le {x : ℤ} {N : ℕ} (hx : x ≠ 0) (h : N < bitSize x) : (2 : ℤ) ^ N ≤ |x| := by
  unfold bitSize at h
  rw [if_neg hx] at h
  have := Nat.lt_size.mp h
  rw [Int.abs_eq_natAbs]
  exact_mod_cast this

theorem sign_of_close {v f e B : ℤ} (hv : v = B * f + e) (he : |e| < B * |f|) :
    v.sign = f.sign := by
  rcases lt_trichotomy f 0 with h | h | h
  · rw [abs_of_neg h] at he
    have := (abs_lt.mp he).2
    rw [Int.sign_eq_neg_one_of_neg h, Int.sign_eq_neg_one_of_neg (by nlinarith)]
  · rw [h, abs_zero, mul_zero] at he
    exact absurd he (not_lt.mpr (abs_nonneg e))
  · rw [abs_of_pos h] at he
    have := (abs_lt.mp he).1
    rw [Int.sign_eq_one_of_pos h, Int.sign_eq_one_of_pos (by nlinarith)]

/-- A coefficient that passes the test of utils.c 254 has the right sign. -/
theorem sure_sign {a q : ℕ → ℤ} {T d t i deg : ℕ} {v f : ℤ} (htd : t ≤ d) (hti : t ≤ i)
    (hd : d - t ≤ deg - i) (hi : i ≤ deg) (hr : ∀ m ≤ d, |a m - 2 ^ T * q m| < 2 ^ T)
    (hv : v = ((toPoly a d).comp (X + 1)).coeff t) (hf : f = ((toPoly q d).comp (X + 1)).coeff t)
    (hf0 : f ≠ 0) (hN : loss deg (Nat.log 2 deg) i < bitSize f) : v.sign = f.sign := by
  have h1 := coeff_shift_lt (fun m => a m - 2 ^ T * q m) d t (2 ^ T) hr htd
  have h2 : ((toPoly (fun m => a m - 2 ^ T * q m) d).comp (X + 1)).coeff t = v - 2 ^ T * f := by
    rw [hv, hf, coeff_shift, coeff_shift, coeff_shift, Finset.mul_sum, ← Finset.sum_sub_distrib]
    exact Finset.sum_congr rfl fun m _ => by ring
  rw [h2] at h1
  refine sign_of_close (B := 2 ^ T) (e := v - 2 ^ T * f) (by ring) (h1.trans_le ?_)
  refine mul_le_mul_of_nonneg_left ?_ (by positivity)
  refine le_trans ?_ (bitSize_pow_le hf0 hN)
  exact_mod_cast choose_le_loss htd hti hd hi

/-! ### counting with unreliable coefficients -/

theorem svCount_sign_le (l : List ℤ) : ∀ s s' : ℤ, (s = 1 ∨ s = -1) → (s' = 1 ∨ s' = -1) →
    svCount s l ≤ svCount s' l + 1 := by
  induction l with
  | nil => intros; simp [svCount]
  | cons a l ih =>
    intro s s' hs hs'
    simp only [svCount]
    rcases Int.sign_trichotomy a with h | h | h <;> rcases hs with rfl | rfl <;> rcases hs' with rfl | rfl <;>
      simp only [h] <;> norm_num
    all_goals first
      | exact (ih _ _ (Or.inl rfl) (Or.inl rfl))
      | exact (ih _ _ (Or.inr rfl) (Or.inr rfl))
      | exact (ih _ _ (Or.inl rfl) (Or.inr rfl))
      | exact (ih _ _ (Or.inr rfl) (Or.inl rfl))
      | exact (ih _ _ (Or.inl rfl) (Or.inl rfl)).trans (by omega)
      | exact (ih _ _ (Or.inr rfl) (Or.inr rfl)).trans (by omega)

theorem svCount_skip {s : ℤ} (hs : s = 1 ∨ s = -1) (a : ℤ) (l : List ℤ) : svCount s l ≤ svCount s (a :: l) := by
  simp only [svCount]
  split
  · rename_i h
    have ha : a ≠ 0 := by rintro rfl; simp at h
    exact svCount_sign_le l s a.sign hs (sign_cases ha)
  · exact le_rfl

/-- Coefficient `i` of `f` passes the test for being reliable. -/
def Sure (f : ℕ → ℤ) (deg i : ℕ) : Prop := f i ≠ 0 ∧ loss deg (Nat.log 2 deg) i < bitSize (f i)

theorem bsLoop_false {f : ℕ → ℤ} {deg bsize L : ℕ} {i : ℕ} : ∀ {s : ℤ} {nb r : ℕ},
    bsLoop f deg bsize L i s nb false = some r → 3 ≤ r := by
  induction i with
  | zero =>
    intro s nb r h
    simp only [bsLoop, ite_self, Bool.false_eq_true, or_false] at h
    generalize (if s * (f 0).sign < 0 ∧ L + 1 < bitSize (f 0) ∧ f 0 ≠ 0 then nb + 1 else nb) = m at h
    split at h
    · rw [← Option.some.inj h]; assumption
    · exact absurd h (by simp)
  | succ i ih =>
    intro s nb r h
    simp only [bsLoop, ite_self] at h
    split at h
    · split at h
      · rw [← Option.some.inj h]; assumption
      · exact ih h
    · exact ih h

theorem bsLoop_ge {f : ℕ → ℤ} {deg bsize L : ℕ} {i : ℕ} : ∀ {s : ℤ} {nb r : ℕ} {boo : Bool},
    bsLoop f deg bsize L i s nb boo = some r → nb ≤ r := by
  induction i with
  | zero =>
    intro s nb r boo h
    simp only [bsLoop] at h
    have : nb ≤ (if s * (f 0).sign < 0 ∧ L + 1 < bitSize (f 0) ∧ f 0 ≠ 0 then nb + 1 else nb) := by
      split <;> omega
    rw [Option.ite_none_right_eq_some] at h
    rw [← Option.some.inj h.2]; exact this
  | succ i ih =>
    intro s nb r boo h
    simp only [bsLoop] at h
    split at h
    · split at h
      · rw [← Option.some.inj h]; omega
      · have := ih h; omega
    · exact ih h

/-- If the answer is 0, all coefficients are reliable and none has the opposite sign. -/
theorem bsLoop_zero {f : ℕ → ℤ} {deg : ℕ} (i : ℕ) : ∀ {s : ℤ} {nb : ℕ} {boo : Bool},
    bsLoop f deg deg (Nat.log 2 deg) i s nb boo = some 0 →
    ∀ j ≤ i, Sure f deg j ∧ ¬ (f j).sign * s < 0 := by
  induction i with
  | zero =>
    intro s nb boo h j hj
    obtain rfl : j = 0 := by omega
    simp only [bsLoop] at h
    by_cases hnot : bitSize (f 0) ≤ Nat.log 2 deg + 1 ∨ f 0 = 0
    · rw [if_pos hnot] at h
      simp only [Bool.false_eq_true, or_false] at h
      rw [Option.ite_none_right_eq_some] at h
      have := Option.some.inj h.2
      omega
    · push Not at hnot
      refine ⟨⟨hnot.2, by simpa [loss] using hnot.1⟩, fun hc => ?_⟩
      rw [mul_comm] at hc
      rw [if_pos (show s * (f 0).sign < 0 ∧ Nat.log 2 deg + 1 < bitSize (f 0) ∧ f 0 ≠ 0 from ⟨hc, hnot⟩)] at h
      rw [Option.ite_none_right_eq_some] at h
      exact absurd (Option.some.inj h.2) (by omega)
  | succ i ih =>
    intro s nb boo h j hj
    simp only [bsLoop] at h
    by_cases hnot : bitSize (f (i + 1)) ≤ lossBits deg deg (Nat.log 2 deg) (i + 1) ∨ f (i + 1) = 0
    · rw [if_pos hnot] at h
      exfalso
      split at h
      · split at h
        · exact absurd (Option.some.inj h) (by omega)
        · exact absurd (bsLoop_false h) (by omega)
      · exact absurd (bsLoop_false h) (by omega)
    · have hnot' := hnot
      push Not at hnot
      have hsure : Sure f deg (i + 1) := ⟨hnot.2, by simpa [loss] using hnot.1⟩
      rw [if_neg hnot'] at h
      by_cases hc : (f (i + 1)).sign * s < 0
      · exfalso
        rw [if_pos ⟨hc, hnot⟩] at h
        split at h
        · exact absurd (Option.some.inj h) (by omega)
        · exact absurd (bsLoop_ge h) (by omega)
      · rw [if_neg (fun h => hc h.1)] at h
        rcases Nat.lt_or_ge i j with hj' | hj'
        · obtain rfl : j = i + 1 := by omega
          exact ⟨hsure, hc⟩
        · exact ih h j hj'

theorem bsLoop_spec {f g : ℕ → ℤ} {deg : ℕ} (i : ℕ) :
    (∀ j ≤ i, Sure f deg j → (g j).sign = (f j).sign) → ∀ (s : ℤ) (nb : ℕ) (boo : Bool) (r : ℕ),
    (s = 1 ∨ s = -1) → nb < 3 → bsLoop f deg deg (Nat.log 2 deg) i s nb boo = some r →
    r = nb + svCount s (desc g (i + 1)) ∨ 3 ≤ r ∧ 3 ≤ nb + svCount s (desc g (i + 1)) := by
  induction i with
  | zero =>
    intro hg s nb boo r hs hnb h
    have hg := hg 0 le_rfl
    simp only [bsLoop] at h
    rw [desc_succ]
    simp only [desc, List.range_zero, List.reverse_nil, List.map_nil, svCount]
    by_cases hsure : Sure f deg 0
    · have hg := hg hsure
      obtain ⟨h1, h2⟩ := hsure
      simp only [loss, if_true] at h2
      simp only [h1, h2, not_le.mpr h2, false_or, ne_eq, not_false_eq_true, and_true, if_false, and_self] at h
      rw [hg, mul_comm]
      rw [Option.ite_none_right_eq_some] at h
      rw [← Option.some.inj h.2]; left; split <;> simp
    · have hnot : bitSize (f 0) ≤ Nat.log 2 deg + 1 ∨ f 0 = 0 := by
        by_contra hc
        push Not at hc
        exact hsure ⟨hc.2, by simpa [loss] using hc.1⟩
      have hnot2 : ¬ (s * (f 0).sign < 0 ∧ Nat.log 2 deg + 1 < bitSize (f 0) ∧ f 0 ≠ 0) := by
        rintro ⟨_, h1, h2⟩
        rcases hnot with h | h
        · omega
        · exact h2 h
      rw [if_pos hnot, if_neg hnot2] at h
      rw [if_neg (by simp; omega)] at h
      exact absurd h (by simp)
  | succ i ih =>
    intro hg s nb boo r hs hnb h
    have ih := ih fun j hj => hg j (by omega)
    have hg := hg (i + 1) le_rfl
    simp only [bsLoop] at h
    rw [desc_succ]
    by_cases hsure : Sure f deg (i + 1)
    · have hg := hg hsure
      obtain ⟨h1, h2⟩ := hsure
      simp only [loss, Nat.succ_ne_zero, if_false] at h2
      simp only [h1, h2, not_le.mpr h2, false_or, ne_eq, not_false_eq_true, and_true, if_false, and_self] at h
      simp only [svCount, hg]
      split
      · rename_i hc
        rw [if_pos hc] at h
        split at h
        · rw [← Option.some.inj h]; right; omega
        · rcases ih (f (i + 1)).sign (nb + 1) _ r (sign_cases h1) (by omega) h with h | h
          · left; omega
          · right; omega
      · rename_i hc
        rw [if_neg hc] at h
        exact ih s nb _ r hs hnb h
    · have hnot2 : ¬ ((f (i + 1)).sign * s < 0 ∧ lossBits deg deg (Nat.log 2 deg) (i + 1) < bitSize (f (i + 1))
          ∧ f (i + 1) ≠ 0) := by
        rintro ⟨_, h1, h2⟩
        exact hsure ⟨h2, by simpa [loss] using h1⟩
      have hnot : bitSize (f (i + 1)) ≤ lossBits deg deg (Nat.log 2 deg) (i + 1) ∨ f (i + 1) = 0 := by
        by_contra hc
        push Not at hc
        exact hsure ⟨hc.2, by simpa [loss] using hc.1⟩
      rw [if_neg hnot2, if_pos hnot] at h
      have hfalse := bsLoop_false h
      have := svCount_skip hs (g (i + 1)) (desc g (i + 1))
      rcases ih s nb false r hs hnb h with h | h
      · right; omega
      · right; omega

/-! ### the test -/

theorem tdiv_close (a : ℤ) (T : ℕ) : |a - 2 ^ T * a.tdiv (2 ^ T)| < 2 ^ T := by
  have h : a - 2 ^ T * a.tdiv (2 ^ T) = a.tmod (2 ^ T) := by
    have := Int.mul_tdiv_add_tmod a (2 ^ T)
    omega
  rw [h]
  have h2 : (0 : ℤ) < 2 ^ T := by positivity
  rcases le_total 0 a with ha | ha
  · rw [abs_of_nonneg (Int.tmod_nonneg _ ha)]; exact Int.tmod_lt_of_pos a h2
  · have h3 := Int.tmod_lt_of_pos (-a) h2
    have h4 := Int.tmod_nonneg (2 ^ T) (show 0 ≤ -a by omega)
    rw [Int.neg_tmod] at h3 h4
    rw [abs_of_nonpos (by omega)]; exact h3

theorem tdiv_sign {a : ℤ} {T : ℕ} (ha : a ≠ 0) (hT : T ≤ bitSize a - 1) : (a.tdiv (2 ^ T)).sign = a.sign := by
  have hb : 0 < bitSize a := by
    unfold bitSize; rw [if_neg ha]; exact Nat.size_pos.mpr (Int.natAbs_pos.mpr ha)
  have h1 := bitSize_pow_le ha (show T < bitSize a by omega)
  have h2 := tdiv_close a T
  have hne : a.tdiv (2 ^ T) ≠ 0 := by
    intro h
    rw [h, mul_zero, sub_zero] at h2
    omega
  symm
  refine sign_of_close (B := 2 ^ T) (e := a - 2 ^ T * a.tdiv (2 ^ T)) (by ring) (h2.trans_le ?_)
  have : 1 ≤ |a.tdiv (2 ^ T)| := Int.one_le_abs hne
  nlinarith [show (0 : ℤ) < 2 ^ T by positivity]

theorem truncBits_le (nbits deg lc : ℕ) : truncBits nbits deg lc ≤ lc - 1 := by
  unfold truncBits
  split
  · exact le_rfl
  · split <;> omega

/-- Sign variations of `P(X + 1)`. -/
noncomputable def varShift (a : ℕ → ℤ) (deg : ℕ) : ℕ :=
  signVariations (((toPoly a deg).comp (X + 1)).map (Int.castRingHom ℝ))

theorem varShift_eq {a g : ℕ → ℤ} {deg : ℕ} (ha : a deg ≠ 0) (hg : toPoly g deg = (toPoly a deg).comp (X + 1)) :
    g deg = a deg ∧ varShift a deg = svCount (a deg).sign (desc g deg) := by
  have h : g deg = a deg := by
    have := congrArg (fun p => p.coeff deg) hg
    simp only [coeff_toPoly, le_refl, if_true] at this
    rw [this, coeff_shift_top]
  refine ⟨h, ?_⟩
  unfold varShift
  rw [← hg, signVariations_toPoly (by rw [h]; exact ha), h]

theorem block_of {deg sz nb : ℕ} (hsz : 1 ≤ sz) (hnb : 1 ≤ nb) (h : (nb - 1) * sz ≤ deg) {i : ℕ} (hi : i ≤ deg) :
    ∃ j < nb, j * sz ≤ i ∧ i ≤ j * sz + bd deg sz nb j ∧ j * sz + bd deg sz nb j ≤ deg := by
  by_cases hl : (nb - 1) * sz ≤ i
  · refine ⟨nb - 1, by omega, hl, ?_⟩
    unfold bd
    rw [if_neg (by omega)]
    omega
  · have hlt : i / sz < nb - 1 := (Nat.div_lt_iff_lt_mul (by omega)).mpr (by omega)
    refine ⟨i / sz, by omega, Nat.div_mul_le_self i sz, ?_⟩
    unfold bd
    rw [if_pos (by omega)]
    have h1 := Nat.div_add_mod i sz
    have h2 := Nat.mod_lt i (show 0 < sz by omega)
    have h3 : (i / sz + 1) * sz ≤ (nb - 1) * sz := Nat.mul_le_mul_right _ (by omega)
    rw [Nat.succ_mul] at h3
    rw [mul_comm] at h1
    omega

theorem blocksT_coeff (deg sz nb : ℕ) (f : ℕ → ℤ) (hsz : 1 ≤ sz) (hnb : 1 ≤ nb) {j i : ℕ} (hj : j < nb)
    (h1 : j * sz ≤ i) (h2 : i ≤ j * sz + bd deg sz nb j) :
    blocksT deg sz nb f i = ((toPoly (sub f (j * sz)) (bd deg sz nb j)).comp (X + 1)).coeff (i - j * sz) := by
  rw [← blocksT_region deg sz nb f hsz hnb j hj, coeff_toPoly, if_pos (by omega)]
  unfold sub
  congr 1; omega

theorem wsgnvar_spec (tab : ℕ → ℕ → ℤ) (a q : ℕ → ℤ) (T deg sz : ℕ) (ha : a deg ≠ 0)
    (hq : ∀ i ≤ deg, |a i - 2 ^ T * q i| < 2 ^ T) (hs : (q deg).sign = (a deg).sign)
    (hsz : 2 ≤ sz ∨ deg ≤ sz)
    (htab : ∀ i, i < Nat.log 2 (deg / sz) → toPoly (tab i) (sz * 2 ^ i) = (X + 1) ^ (sz * 2 ^ i)) :
    ∃ r, wsgnvar tab q deg sz = some r ∧
      ∀ nb, r = some nb → nb = varShift a deg ∨ 3 ≤ nb ∧ 3 ≤ varShift a deg := by
  unfold wsgnvar
  simp only
  by_cases hnb : numBlocks deg sz ≤ 1
  · rw [if_pos hnb]; exact ⟨none, rfl, fun _ h => absurd h (by simp)⟩
  have hds : ¬ deg ≤ sz := by
    intro h; unfold numBlocks at hnb; rw [if_pos h] at hnb; omega
  have hsz : 2 ≤ sz := hsz.resolve_right hds
  rw [if_neg hnb, if_neg (by omega)]
  have hnbe : numBlocks deg sz = 2 ^ Nat.log 2 (deg / sz) := by unfold numBlocks; rw [if_neg hds]
  have hL : Nat.log 2 (deg / sz) ≠ 0 := by
    intro h; rw [hnbe, h] at hnb; simp at hnb
  obtain ⟨n, hn⟩ : ∃ n, Nat.log 2 (deg / sz) = n + 1 := ⟨_, (Nat.succ_pred_eq_of_ne_zero hL).symm⟩
  have hle : 2 ^ (n + 1) * sz ≤ deg := by
    have h1 : 2 ^ Nat.log 2 (deg / sz) ≤ deg / sz :=
      Nat.pow_log_le_self 2 (Nat.div_pos (by omega) (by omega)).ne'
    rw [hn] at h1
    exact (Nat.mul_le_mul_right sz h1).trans (Nat.div_mul_le_self deg sz)
  have hle' : (2 ^ (n + 1) - 1) * sz ≤ deg := (Nat.mul_le_mul_right sz (Nat.sub_le _ _)).trans hle
  have hpos : 1 ≤ 2 ^ (n + 1) := Nat.one_le_two_pow
  rw [hnbe, hn, Nat.log_pow (by omega), Nat.add_sub_cancel]
  -- the result of the complete shift
  have hfin : ∀ f : ℕ → ℤ,
      let r := levelsT tab deg n 0 sz (2 ^ (n + 1)) (blocksT deg sz (2 ^ (n + 1)) f)
      toPoly (combineT (tab n) r.2 0 (deg - r.2) r.1) deg = (toPoly f deg).comp (X + 1) := by
    intro f
    rw [levelsT_eq _ _ _ _ _ _ (by omega)]
    simp only
    rw [combineT_eq _ _ _ _ _ (by rw [levels_sz]; exact Nat.mul_pos (by omega) (by positivity))]
    have := levels_spec tab deg n 0 sz (blocksT deg sz (2 ^ (n + 1)) f)
      (by omega) hle' fun t ht => by rw [zero_add]; exact htab t (by omega)
    simp only [zero_add] at this
    rw [this, blocksT_Q deg sz _ f (by omega) hpos hle']
  set F := blocksT deg sz (2 ^ (n + 1)) q with hF
  set G := blocksT deg sz (2 ^ (n + 1)) a with hG
  have hsa := sign_cases ha
  have hlast : ∀ f : ℕ → ℤ, blocksT deg sz (2 ^ (n + 1)) f deg = f deg := by
    intro f
    have hb : bd deg sz (2 ^ (n + 1)) (2 ^ (n + 1) - 1) = deg - (2 ^ (n + 1) - 1) * sz := by
      unfold bd; rw [if_neg (by omega)]
    rw [blocksT_coeff deg sz (2 ^ (n + 1)) f (by omega) hpos (j := 2 ^ (n + 1) - 1) (by omega) hle'
      (by rw [hb]; omega), hb, coeff_shift_top]
    unfold sub; congr 1; omega
  by_cases h0 : variationsBsize F deg deg = some 0
  · rw [if_pos h0]
    refine ⟨some 0, rfl, fun nb h => ?_⟩
    left
    rw [← Option.some.inj h]
    unfold variationsBsize at h0
    rw [show F deg = q deg from hlast q, hs] at h0
    rw [if_neg (by rcases hsa with h | h <;> rw [h] <;> decide)] at h0
    have hall := bsLoop_zero (deg - 1) h0
    -- all blocks of the exact shift have coefficients of one sign
    have hGs : ∀ i ≤ deg, 0 ≤ G i * (a deg).sign := by
      intro i hi
      rcases Nat.lt_or_ge i deg with hlt | hge
      · obtain ⟨⟨hf0, hN⟩, hsgn⟩ := hall i (by omega)
        obtain ⟨j, hj, hj1, hj2, hj3⟩ := block_of (nb := 2 ^ (n + 1)) (show 1 ≤ sz by omega) hpos hle' hi
        have := sure_sign (a := sub a (j * sz)) (q := sub q (j * sz)) (T := T) (d := bd deg sz (2 ^ (n + 1)) j)
          (t := i - j * sz) (i := i) (deg := deg) (v := G i) (f := F i) (by omega) (by omega) (by omega) hi
          (fun m hm => hq (j * sz + m) (by omega))
          (blocksT_coeff deg sz _ a (by omega) hpos hj hj1 hj2)
          (blocksT_coeff deg sz _ q (by omega) hpos hj hj1 hj2) hf0 hN
        rw [← this] at hsgn
        rcases hsa with h | h
        · rw [h, mul_one] at hsgn ⊢
          by_contra hc
          rw [Int.sign_eq_neg_one_of_neg (by omega)] at hsgn
          exact hsgn (by decide)
        · rw [h] at hsgn ⊢
          by_contra hc
          rw [Int.sign_eq_one_of_pos (by omega)] at hsgn
          exact hsgn (by decide)
      · obtain rfl : i = deg := by omega
        rw [hG, hlast a, Int.mul_sign_self]
        positivity
    obtain ⟨g1, g2⟩ := varShift_eq ha (hfin a)
    set g := combineT (tab n) (levelsT tab deg n 0 sz (2 ^ (n + 1)) (blocksT deg sz (2 ^ (n + 1)) a)).2 0
      (deg - (levelsT tab deg n 0 sz (2 ^ (n + 1)) (blocksT deg sz (2 ^ (n + 1)) a)).2)
      (levelsT tab deg n 0 sz (2 ^ (n + 1)) (blocksT deg sz (2 ^ (n + 1)) a)).1 with hg
    have hQ := blocksT_Q deg sz (2 ^ (n + 1)) a (by omega) hpos hle'
    have hcoef : ∀ i ≤ deg, 0 ≤ g i * (a deg).sign := by
      intro i hi
      have e : g i = (Q G deg sz (2 ^ (n + 1))).coeff i := by
        rw [hQ, ← hfin a, coeff_toPoly, if_pos hi]
      rw [e]
      unfold Q
      rw [finsetSum_coeff, Finset.sum_mul]
      refine Finset.sum_nonneg fun j hj => ?_
      have hj := Finset.mem_range.mp hj
      rw [coeff_mul, Finset.sum_mul]
      refine Finset.sum_nonneg fun p _ => ?_
      rw [coeff_X_add_one_pow, coeff_toPoly, mul_assoc]
      refine mul_nonneg (by positivity) ?_
      split
      · rename_i hp
        refine hGs (j * sz + p.2) ?_
        refine le_trans (Nat.add_le_add_left hp _) ?_
        unfold bd
        split
        · have : (j + 1) * sz ≤ (2 ^ (n + 1) - 1) * sz := Nat.mul_le_mul_right _ (by omega)
          rw [Nat.succ_mul] at this
          omega
        · have : j = 2 ^ (n + 1) - 1 := by omega
          rw [this]; omega
      · simp
    rw [g2]
    symm
    have hzero : ∀ (l : List ℤ) (s : ℤ), (s = 1 ∨ s = -1) → (∀ x ∈ l, 0 ≤ x * s) → svCount s l = 0 := by
      intro l s hs
      induction l with
      | nil => intro _; rfl
      | cons x l ih =>
        intro hx
        simp only [svCount]
        have := hx x List.mem_cons_self
        rw [if_neg, ih fun y hy => hx y (List.mem_cons_of_mem _ hy)]
        rcases hs with rfl | rfl
        · have : 0 ≤ x.sign := Int.sign_nonneg_iff.mpr (by omega)
          omega
        · have : x.sign ≤ 0 := Int.sign_nonpos_iff.mpr (by omega)
          omega
    refine hzero _ _ hsa fun x hx => ?_
    unfold desc at hx
    obtain ⟨i, hi, rfl⟩ := List.mem_map.mp hx
    exact hcoef i (by have := List.mem_range.mp (List.mem_reverse.mp hi); omega)
  · rw [if_neg h0]
    refine ⟨_, rfl, fun nb h => ?_⟩
    have hfq := hfin q
    have hfa := hfin a
    simp only at hfq hfa
    rw [← hF] at hfq
    rw [← hG] at hfa
    set f' := combineT (tab n) (levelsT tab deg n 0 sz (2 ^ (n + 1)) F).2 0
      (deg - (levelsT tab deg n 0 sz (2 ^ (n + 1)) F).2) (levelsT tab deg n 0 sz (2 ^ (n + 1)) F).1
    set g' := combineT (tab n) (levelsT tab deg n 0 sz (2 ^ (n + 1)) G).2 0
      (deg - (levelsT tab deg n 0 sz (2 ^ (n + 1)) G).2) (levelsT tab deg n 0 sz (2 ^ (n + 1)) G).1
    obtain ⟨g1, g2⟩ := varShift_eq ha hfa
    have f1 : f' deg = q deg := by
      have := congrArg (fun p => p.coeff deg) hfq
      simp only [coeff_toPoly, le_refl, if_true] at this
      rw [this, coeff_shift_top]
    unfold variationsBsize at h
    rw [f1, hs, if_neg (by rcases hsa with h | h <;> rw [h] <;> decide)] at h
    have := bsLoop_spec (f := f') (g := g') (deg := deg) (deg - 1) (fun i hi hsure => ?_) (a deg).sign 0 true nb
      hsa (by omega) h
    · rw [show deg - 1 + 1 = deg by omega, zero_add, ← g2] at this
      exact this
    · refine sure_sign (a := a) (q := q) (T := T) (d := deg) (t := i) (i := i) (deg := deg) (by omega) le_rfl
        le_rfl (by omega) hq ?_ ?_ hsure.1 hsure.2
      · rw [← hfa, coeff_toPoly, if_pos (by omega)]
      · rw [← hfq, coeff_toPoly, if_pos (by omega)]

theorem truncate_spec (tab : ℕ → ℕ → ℤ) (a : ℕ → ℤ) (deg nbits sz : ℕ) (ha : a deg ≠ 0)
    (hsz : 2 ≤ sz ∨ deg ≤ sz)
    (htab : ∀ i, i < Nat.log 2 (deg / sz) → toPoly (tab i) (sz * 2 ^ i) = (X + 1) ^ (sz * 2 ^ i)) :
    ∃ r, truncate tab a deg nbits sz = some r ∧
      ∀ nb, r = some nb → nb = varShift a deg ∨ 3 ≤ nb ∧ 3 ≤ varShift a deg :=
  wsgnvar_spec tab a _ (truncBits nbits deg (bitSize (a deg))) deg sz ha (fun i _ => tdiv_close (a i) _)
    (tdiv_sign ha (truncBits_le _ _ _)) hsz htab

/-- The Descartes test: exact up to two variations, otherwise at least three are announced. -/
theorem descartes_spec (tab : ℕ → ℕ → ℤ) (f : ℕ → ℤ) (deg sz : ℕ) (hf : f 0 ≠ 0) (hdeg : 1 ≤ deg)
    (hsz : 2 ≤ sz ∨ deg ≤ sz)
    (htab : ∀ i, i < Nat.log 2 (deg / sz) → toPoly (tab i) (sz * 2 ^ i) = (X + 1) ^ (sz * 2 ^ i)) :
    ∃ r, descartes tab f deg sz = some r ∧
      (r = varShift (reversed f deg) deg ∨ 3 ≤ r ∧ 3 ≤ varShift (reversed f deg) deg) := by
  have ha : reversed f deg deg ≠ 0 := by unfold reversed; rwa [Nat.sub_self]
  obtain ⟨r, h1, h2⟩ := truncate_spec tab (reversed f deg) deg (maxBsize f deg) sz ha hsz htab
  unfold descartes
  rw [h1, Option.bind_some]
  cases r with
  | some nb => exact ⟨nb, rfl, h2 nb rfl⟩
  | none =>
    obtain ⟨g, hg1, hg2⟩ := dac_spec tab (reversed f deg) deg sz hdeg hsz htab
    simp only
    rw [hg1, Option.bind_some]
    obtain ⟨g1, _⟩ := varShift_eq ha hg2
    unfold variations
    rw [if_neg (by omega)]
    refine ⟨_, rfl, ?_⟩
    have := varLoop_poly (f := g) (deg := deg) (cap := 3) (by rw [g1]; exact ha) (by omega) (by omega)
    unfold varShift
    rw [← hg2]
    exact this

end Verif.UDescartes
