import Verif.UScale
import Mathlib.Data.Nat.Log
import Mathlib.Algebra.Polynomial.Eval.Degree
import Mathlib.Algebra.Polynomial.Monic

/-!
Taylor shift by one.
Source: src/usolve/taylor_shift.c 45-52 (naive), 88-96, 137-244 (divide and conquer),
src/usolve/usolve.c 115-137 (table of the powers of `X + 1`), 212-230,
src/usolve/univmultiply.c 86-127 (`mpz_poly_mul`, by FLINT, trusted).
-/
namespace Verif.UTaylor
open Verif.UPoly Verif.UScale Polynomial

/-- taylor_shift.c 48-50: the inner loop, `j = i + t` from `deg - 1` down to `i`. -/
def pass (deg i : ℕ) (f : ℕ → ℤ) : ℕ → ℤ :=
  (List.range (deg - i)).reverse.foldl
    (fun f t => Function.update f (i + t) (f (i + t) + f (i + t + 1))) f

/-- taylor_shift.c 45-52 (`taylorshift1_naive`) for `deg ≥ 1`. -/
def naive (f : ℕ → ℤ) (deg : ℕ) : ℕ → ℤ :=
  (List.range deg).foldl (fun f i => pass deg i f) f

/-- taylor_shift.c 45-52 with the case `deg = 0`: the comparison `i <= deg - 1` is made modulo `2^64` and
the loop does not end: `none`. -/
def taylorNaive (f : ℕ → ℤ) (deg : ℕ) : Option (ℕ → ℤ) := if deg = 0 then none else some (naive f deg)

/-- The array that begins at `&f[o]`. -/
def sub (f : ℕ → ℤ) (o : ℕ) : ℕ → ℤ := fun i => f (o + i)

/-- Entries `o..o+d` of `f` replaced by the entries `0..d` of `g`. -/
def splice (f : ℕ → ℤ) (o d : ℕ) (g : ℕ → ℤ) : ℕ → ℤ :=
  fun i => if o ≤ i ∧ i ≤ o + d then g (i - o) else f i

/-- taylor_shift.c 162-178: one turn of the first loop of `taylorshift1_dac`, on the block of degree `d`
that begins at `o`. -/
def blockShift (o d : ℕ) (f : ℕ → ℤ) : ℕ → ℤ :=
  let r := removeContent (sub f o) d
  let g := naive r.2 d
  splice f o d fun j => g j * 2 ^ r.1

/-- univmultiply.c 86-127 (`mpz_poly_mul`): product of two polynomials of degrees `d1` and `d2`. -/
def convMul (p : ℕ → ℤ) (d1 : ℕ) (q : ℕ → ℤ) (d2 : ℕ) : ℕ → ℤ := fun j =>
  (List.range (d1 + 1)).foldl (fun s a => if a ≤ j ∧ j - a ≤ d2 then s + p a * q (j - a) else s) 0

/-- taylor_shift.c 196-218 and 229-242: two neighbouring blocks, the first of `sz` entries from `o` on, the
second of degree `nd`, are combined. The array `tmpol` is written before it is read and is not part of the
state; its part that `mpz_poly_swap_th` moves to `upol` is. -/
def combine (tab : ℕ → ℤ) (sz o nd : ℕ) (f : ℕ → ℤ) : ℕ → ℤ :=
  let r := removeContent (sub f (o + sz)) nd
  let t := convMul tab sz r.2 nd
  fun i =>
    if o ≤ i ∧ i < o + sz then f i + t (i - o) * 2 ^ r.1
    else if o + sz ≤ i ∧ i ≤ o + sz + nd then t (i - o) * 2 ^ r.1
    else f i

/-- taylor_shift.c 193-219: the blocks of one level, `nb` blocks of `sz` entries (the last one is of degree
`deg - (nb - 1) * sz`). -/
def level (tab : ℕ → ℤ) (sz nb deg : ℕ) (f : ℕ → ℤ) : ℕ → ℤ :=
  (List.range (nb / 2)).foldl
    (fun f c => combine tab sz (2 * c * sz) (if c + 1 = nb / 2 then deg - (nb - 1) * sz else sz - 1) f) f

/-- taylor_shift.c 184-224: the loop over the levels, `n` turns from `i` on; returns the array and the size
of the blocks. -/
def levels (tab : ℕ → ℕ → ℤ) (deg : ℕ) : ℕ → ℕ → ℕ → ℕ → (ℕ → ℤ) → (ℕ → ℤ) × ℕ
  | 0, _, sz, _, f => (f, sz)
  | n + 1, i, sz, nb, f => levels tab deg n (i + 1) (2 * sz) (nb / 2) (level (tab i) sz nb deg f)

/-- taylor_shift.c 144-152 and 330-342: the number of blocks. -/
def numBlocks (deg sz : ℕ) : ℕ := if deg ≤ sz then 0 else 2 ^ Nat.log 2 (deg / sz)

/-- taylor_shift.c 137-244 (`taylorshift1_dac`). `none` if a naive shift of degree 0 is needed (it does not
end). `tab i` is the array `shift_pwx[i]`. -/
def dac (tab : ℕ → ℕ → ℤ) (f : ℕ → ℤ) (deg sz : ℕ) : Option (ℕ → ℤ) :=
  let nb := numBlocks deg sz
  if nb ≤ 1 then taylorNaive f deg
  else if sz ≤ 1 then none
  else
    let f1 := (List.range nb).foldl
      (fun f i => blockShift (i * sz) (if i + 1 < nb then sz - 1 else deg - (nb - 1) * sz) f) f
    let np := Nat.log 2 nb
    let r := levels tab deg (np - 1) 0 sz nb f1
    some (combine (tab (np - 1)) r.2 0 (deg - r.2) r.1)

/-- usolve.c 217-228 (`allocate_shift_pwx`, first array): all entries are 0 but the one of degree `pwx`. -/
def shift0 (pwx : ℕ) : ℕ → ℤ := fun i => if i = pwx then 1 else 0

/-- usolve.c 115-127 (`compute_shift_pwx`): the table of the shifted powers. -/
def shiftTab (pwx : ℕ) : ℕ → ℕ → ℤ
  | 0 => naive (shift0 pwx) pwx
  | i + 1 => convMul (shiftTab pwx i) (pwx * 2 ^ i) (shiftTab pwx i) (pwx * 2 ^ i)

/-- usolve.c 129-136 (`compute_degpower`) for `deg ≥ 1` (`none` for 0: the loop does not end, since
`pwr - 1` is computed modulo `2^64`). -/
def degPower : ℕ → Option ℕ
  | 0 => none
  | n + 1 => if 256 ≤ n then degPower ((n + 1) / 2) else some (n + 1)

/-! ### the naive shift -/

theorem pass_spec (deg i : ℕ) (f : ℕ → ℤ) :
    (∀ j, j < i ∨ deg ≤ j → pass deg i f j = f j) ∧
      ∀ j, i ≤ j → j < deg → pass deg i f j = f j + pass deg i f (j + 1) := by
  unfold pass
  generalize hm : deg - i = m
  have key : ∀ (m : ℕ) (f : ℕ → ℤ),
      let r := (List.range m).reverse.foldl
        (fun (f : ℕ → ℤ) t => Function.update f (i + t) (f (i + t) + f (i + t + 1))) f
      (∀ j, j < i ∨ i + m ≤ j → r j = f j) ∧ ∀ j, i ≤ j → j < i + m → r j = f j + r (j + 1) := by
    intro m
    induction m with
    | zero => intro f; simp; intro j h1 h2; omega
    | succ m ih =>
      intro f
      rw [List.range_succ, List.reverse_append, List.reverse_cons, List.reverse_nil, List.nil_append,
        List.cons_append, List.nil_append, List.foldl_cons]
      have := ih (Function.update f (i + m) (f (i + m) + f (i + m + 1)))
      revert this
      generalize (List.range m).reverse.foldl
        (fun (f : ℕ → ℤ) t => Function.update f (i + t) (f (i + t) + f (i + t + 1))) _ = r
      simp only
      rintro ⟨h1, h2⟩
      refine ⟨fun j hj => ?_, fun j hj1 hj2 => ?_⟩
      · rw [h1 j (by omega), Function.update_of_ne (by omega)]
      · by_cases hj : j = i + m
        · subst hj
          rw [h1 _ (Or.inr le_rfl), Function.update_self, h1 _ (Or.inr (by omega)),
            Function.update_of_ne (by omega)]
        · rw [h2 j hj1 (by omega), Function.update_of_ne (by omega)]
  obtain ⟨h1, h2⟩ := key m f
  refine ⟨fun j hj => ?_, fun j hj1 hj2 => h2 j hj1 (by omega)⟩
  by_cases hji : j < i
  · exact h1 j (Or.inl hji)
  · exact h1 j (Or.inr (by omega))

/-- Mixed representation: the first `i` entries are coefficients in `X - 1`. -/
noncomputable def mixed (f : ℕ → ℤ) (deg i : ℕ) : ℤ[X] :=
  ∑ l ∈ Finset.range i, C (f l) * (X - 1) ^ l
    + (X - 1) ^ i * ∑ t ∈ Finset.range (deg - i + 1), C (f (i + t)) * X ^ t

theorem mixed_pass (f : ℕ → ℤ) (deg i : ℕ) (hi : i < deg) :
    mixed (pass deg i f) deg (i + 1) = mixed f deg i := by
  obtain ⟨h1, h2⟩ := pass_spec deg i f
  generalize pass deg i f = g at *
  unfold mixed
  rw [Finset.sum_range_succ]
  have e1 : ∑ l ∈ Finset.range i, C (g l) * (X - 1 : ℤ[X]) ^ l = ∑ l ∈ Finset.range i, C (f l) * (X - 1) ^ l :=
    Finset.sum_congr rfl fun l hl => by rw [h1 l (Or.inl (Finset.mem_range.mp hl))]
  rw [e1, add_assoc]
  congr 1
  obtain ⟨m, rfl⟩ : ∃ m, deg = i + m + 1 := ⟨deg - i - 1, by omega⟩
  rw [show i + m + 1 - (i + 1) + 1 = m + 1 by omega, show i + m + 1 - i + 1 = m + 2 by omega]
  have e2 : ∑ t ∈ Finset.range (m + 2), C (f (i + t)) * (X : ℤ[X]) ^ t
      = C (g i) + (X - 1) * ∑ t ∈ Finset.range (m + 1), C (g (i + 1 + t)) * X ^ t := by
    have hlast : g (i + (m + 1)) = f (i + (m + 1)) := h1 _ (Or.inr (by omega))
    have hrec : ∀ t ∈ Finset.range (m + 1), C (f (i + t)) * (X : ℤ[X]) ^ t
        = C (g (i + t)) * X ^ t - C (g (i + 1 + t)) * X ^ t := by
      intro t ht
      have := Finset.mem_range.mp ht
      have := h2 (i + t) (by omega) (by omega)
      rw [show i + 1 + t = i + t + 1 by omega]
      rw [this]; simp; ring
    rw [Finset.sum_range_succ, Finset.sum_congr rfl hrec, Finset.sum_sub_distrib, ← hlast, sub_mul, one_mul,
      Finset.mul_sum]
    have e3 : ∑ t ∈ Finset.range (m + 1), (X : ℤ[X]) * (C (g (i + 1 + t)) * X ^ t)
        = ∑ t ∈ Finset.range (m + 2), C (g (i + t)) * X ^ t - C (g i) := by
      rw [Finset.sum_range_succ' _ (m + 1)]
      simp only [add_zero, pow_zero, mul_one, add_sub_cancel_right]
      refine Finset.sum_congr rfl fun t _ => ?_
      rw [show i + 1 + t = i + (t + 1) by omega]; ring
    rw [e3, Finset.sum_range_succ _ (m + 1)]
    ring
  rw [e2]
  ring

theorem naive_outside (f : ℕ → ℤ) (deg j : ℕ) (hj : deg < j) : naive f deg j = f j := by
  unfold naive
  have : ∀ l : List ℕ, ∀ f : ℕ → ℤ, (l.foldl (fun f i => pass deg i f) f) j = f j := by
    intro l
    induction l with
    | nil => intro f; rfl
    | cons a l ih => intro f; rw [List.foldl_cons, ih, (pass_spec deg a f).1 j (Or.inr hj.le)]
  exact this _ _

theorem naive_poly (f : ℕ → ℤ) (deg : ℕ) :
    toPoly (naive f deg) deg = (toPoly f deg).comp (X + 1) := by
  have h : ∀ m ≤ deg, mixed ((List.range m).foldl (fun f i => pass deg i f) f) deg m = toPoly f deg := by
    intro m
    induction m with
    | zero => intro _; simp [mixed, toPoly]
    | succ m ih =>
      intro hm
      rw [List.range_succ, List.foldl_append, List.foldl_cons, List.foldl_nil, mixed_pass _ _ _ (by omega),
        ih (by omega)]
  have := h deg le_rfl
  change mixed (naive f deg) deg deg = _ at this
  rw [← this]
  generalize naive f deg = g
  unfold mixed toPoly
  simp only [Nat.sub_self, zero_add, Finset.range_one, Finset.sum_singleton, add_zero, pow_zero, mul_one,
    add_comp, mul_comp, sum_comp, C_comp, pow_comp, sub_comp, X_comp, one_comp, add_sub_cancel_right]
  rw [Finset.sum_range_succ]
  ring

/-! ### multiplication and combination of blocks -/

theorem convMul_eq (p : ℕ → ℤ) (d1 : ℕ) (q : ℕ → ℤ) (d2 j : ℕ) :
    convMul p d1 q d2 j = (toPoly p d1 * toPoly q d2).coeff j := by
  have h1 : convMul p d1 q d2 j
      = ∑ a ∈ Finset.range (d1 + 1), if a ≤ j ∧ j - a ≤ d2 then p a * q (j - a) else 0 := by
    unfold convMul
    generalize d1 + 1 = n
    induction n with
    | zero => simp
    | succ n ih =>
      rw [List.range_succ, List.foldl_append, List.foldl_cons, List.foldl_nil, ih, Finset.sum_range_succ]
      split <;> simp
  rw [h1, coeff_mul, Finset.Nat.sum_antidiagonal_eq_sum_range_succ_mk]
  simp only [coeff_toPoly]
  have e1 : ∑ a ∈ Finset.range (d1 + 1), (if a ≤ j ∧ j - a ≤ d2 then p a * q (j - a) else 0)
      = ∑ a ∈ Finset.range (d1 + j + 1), if a ≤ d1 ∧ a ≤ j ∧ j - a ≤ d2 then p a * q (j - a) else 0 := by
    symm
    refine (Finset.sum_subset (s₁ := Finset.range (d1 + 1)) (Finset.range_mono (by omega)) ?_).symm.trans ?_
    · intro a _ ha
      have : ¬ a < d1 + 1 := by simpa using ha
      rw [if_neg (by omega)]
    · refine Finset.sum_congr rfl fun a ha => ?_
      have := Finset.mem_range.mp ha
      simp only [show a ≤ d1 by omega, true_and]
  have e2 : ∑ a ∈ Finset.range (j + 1), ((if a ≤ d1 then p a else 0) * if j - a ≤ d2 then q (j - a) else 0)
      = ∑ a ∈ Finset.range (d1 + j + 1), if a ≤ d1 ∧ a ≤ j ∧ j - a ≤ d2 then p a * q (j - a) else 0 := by
    symm
    refine (Finset.sum_subset (s₁ := Finset.range (j + 1)) (Finset.range_mono (by omega)) ?_).symm.trans ?_
    · intro a _ ha
      have : ¬ a < j + 1 := by simpa using ha
      rw [if_neg (by omega)]
    · refine Finset.sum_congr rfl fun a ha => ?_
      have := Finset.mem_range.mp ha
      simp only [show a ≤ j by omega, true_and]
      by_cases h1 : a ≤ d1 <;> by_cases h2 : j - a ≤ d2 <;> simp [h1, h2]
  rw [e1]; exact e2.symm

theorem convMul_poly (p : ℕ → ℤ) (d1 : ℕ) (q : ℕ → ℤ) (d2 : ℕ) :
    toPoly (convMul p d1 q d2) (d1 + d2) = toPoly p d1 * toPoly q d2 := by
  ext j
  rw [coeff_toPoly]
  split
  · exact convMul_eq p d1 q d2 j
  · symm
    apply coeff_eq_zero_of_natDegree_lt
    have := natDegree_mul_le (p := toPoly p d1) (q := toPoly q d2)
    have h1 := natDegree_toPoly_le p d1
    have h2 := natDegree_toPoly_le q d2
    omega

theorem combine_poly (tab : ℕ → ℤ) (sz o nd : ℕ) (f : ℕ → ℤ) (hsz : 1 ≤ sz) :
    toPoly (sub (combine tab sz o nd f) o) (sz + nd)
      = toPoly (sub f o) (sz - 1) + toPoly tab sz * toPoly (sub f (o + sz)) nd := by
  rw [← removeContent_poly (sub f (o + sz)) nd]
  ext j
  rw [coeff_add, mul_left_comm, coeff_C_mul, ← convMul_eq, coeff_toPoly, coeff_toPoly]
  have hs : ∀ g : ℕ → ℤ, sub g o j = g (o + j) := fun _ => rfl
  rw [hs, hs]
  unfold combine
  by_cases h1 : j < sz
  · rw [if_pos (show j ≤ sz + nd by omega), if_pos (by omega), if_pos (by omega), Nat.add_sub_cancel_left]
    ring
  · rw [if_neg (show ¬ j ≤ sz - 1 by omega)]
    by_cases h2 : j ≤ sz + nd
    · rw [if_pos h2, if_neg (by omega), if_pos (by omega), Nat.add_sub_cancel_left]
      ring
    · rw [if_neg h2, convMul_eq, coeff_eq_zero_of_natDegree_lt, mul_zero, add_zero]
      have := natDegree_mul_le (p := toPoly tab sz)
        (q := toPoly (removeContent (sub f (o + sz)) nd).2 nd)
      have h1 := natDegree_toPoly_le tab sz
      have h2 := natDegree_toPoly_le (removeContent (sub f (o + sz)) nd).2 nd
      omega

theorem combine_outside (tab : ℕ → ℤ) (sz o nd : ℕ) (f : ℕ → ℤ) (x : ℕ)
    (hx : ¬ (o ≤ x ∧ x ≤ o + sz + nd)) : combine tab sz o nd f x = f x := by
  unfold combine
  rw [if_neg (by omega), if_neg (by omega)]

theorem toPoly_inj {f g : ℕ → ℤ} {d : ℕ} (h : toPoly f d = toPoly g d) (i : ℕ) (hi : i ≤ d) : f i = g i := by
  have := congrArg (fun p => p.coeff i) h
  simpa [coeff_toPoly, hi] using this

theorem sub_congr {f f' : ℕ → ℤ} {o d : ℕ} (h : ∀ x, o ≤ x → x ≤ o + d → f x = f' x) :
    toPoly (sub f o) d = toPoly (sub f' o) d :=
  toPoly_congr fun i hi => h (o + i) (by omega) (by omega)

theorem combine_local (tab : ℕ → ℤ) (sz o nd : ℕ) (f f' : ℕ → ℤ) (hsz : 1 ≤ sz)
    (h : ∀ x, o ≤ x → x ≤ o + sz + nd → f x = f' x) (x : ℕ) (h1 : o ≤ x) (h2 : x ≤ o + sz + nd) :
    combine tab sz o nd f x = combine tab sz o nd f' x := by
  have : toPoly (sub (combine tab sz o nd f) o) (sz + nd) = toPoly (sub (combine tab sz o nd f') o) (sz + nd) := by
    rw [combine_poly _ _ _ _ _ hsz, combine_poly _ _ _ _ _ hsz]
    congr 1
    · exact sub_congr fun x h1 h2 => h x h1 (by omega)
    · rw [sub_congr fun x h1 h2 => h x (by omega) h2]
  have := toPoly_inj this (x - o) (by omega)
  unfold sub at this
  rwa [show o + (x - o) = x by omega] at this

theorem blockShift_poly (o d : ℕ) (f : ℕ → ℤ) :
    toPoly (sub (blockShift o d f) o) d = (toPoly (sub f o) d).comp (X + 1) := by
  rw [← removeContent_poly (sub f o) d, mul_comp, C_comp, ← naive_poly]
  ext j
  rw [coeff_C_mul, coeff_toPoly, coeff_toPoly]
  have hs : ∀ g : ℕ → ℤ, sub g o j = g (o + j) := fun _ => rfl
  rw [hs]
  unfold blockShift splice
  simp only
  by_cases h : j ≤ d
  · rw [if_pos h, if_pos h, if_pos (by omega), Nat.add_sub_cancel_left]; ring
  · rw [if_neg h, if_neg h, mul_zero]

theorem blockShift_outside (o d : ℕ) (f : ℕ → ℤ) (x : ℕ) (hx : ¬ (o ≤ x ∧ x ≤ o + d)) :
    blockShift o d f x = f x := by
  unfold blockShift splice
  rw [if_neg hx]

theorem blockShift_local (o d : ℕ) (f f' : ℕ → ℤ)
    (h : ∀ x, o ≤ x → x ≤ o + d → f x = f' x) (x : ℕ) (h1 : o ≤ x) (h2 : x ≤ o + d) :
    blockShift o d f x = blockShift o d f' x := by
  have : toPoly (sub (blockShift o d f) o) d = toPoly (sub (blockShift o d f') o) d := by
    rw [blockShift_poly, blockShift_poly, sub_congr h]
  have := toPoly_inj this (x - o) (by omega)
  unfold sub at this
  rwa [show o + (x - o) = x by omega] at this

/-! ### loops over disjoint regions of an array -/

theorem fold_regions {l : List ℕ} (g : ℕ → (ℕ → ℤ) → ℕ → ℤ) (lo hi : ℕ → ℕ)
    (hout : ∀ t f x, ¬ (lo t ≤ x ∧ x ≤ hi t) → g t f x = f x)
    (hloc : ∀ t f f', (∀ x, lo t ≤ x → x ≤ hi t → f x = f' x) →
      ∀ x, lo t ≤ x → x ≤ hi t → g t f x = g t f' x)
    (hdisj : l.Pairwise fun a b => hi a < lo b ∨ hi b < lo a) (f : ℕ → ℤ) :
    (∀ t ∈ l, ∀ x, lo t ≤ x → x ≤ hi t → l.foldl (fun f t => g t f) f x = g t f x) ∧
      ∀ x, (∀ t ∈ l, ¬ (lo t ≤ x ∧ x ≤ hi t)) → l.foldl (fun f t => g t f) f x = f x := by
  induction l generalizing f with
  | nil => simp
  | cons a l ih =>
    rw [List.pairwise_cons] at hdisj
    obtain ⟨ih1, ih2⟩ := ih hdisj.2 (g a f)
    refine ⟨fun t ht x hx1 hx2 => ?_, fun x hx => ?_⟩
    · rw [List.foldl_cons]
      rcases List.mem_cons.mp ht with rfl | ht
      · refine ih2 x fun u hu hux => ?_
        have := hdisj.1 u hu
        omega
      · rw [ih1 t ht x hx1 hx2]
        refine hloc t _ _ (fun y hy1 hy2 => hout a f y ?_) x hx1 hx2
        have := hdisj.1 t ht
        omega
    · rw [List.foldl_cons, ih2 x fun t ht => hx t (List.mem_cons_of_mem _ ht)]
      exact hout a f x (hx a List.mem_cons_self)

/-! ### divide and conquer -/

/-- Degree of block `j` of `nb`. -/
def bd (deg sz nb j : ℕ) : ℕ := if j + 1 < nb then sz - 1 else deg - (nb - 1) * sz

/-- The polynomial represented by `nb` blocks that have been shifted separately. -/
noncomputable def Q (f : ℕ → ℤ) (deg sz nb : ℕ) : ℤ[X] :=
  ∑ j ∈ Finset.range nb, (X + 1) ^ (j * sz) * toPoly (sub f (j * sz)) (bd deg sz nb j)

theorem blocks_sum (f : ℕ → ℤ) (deg sz nb : ℕ) (hsz : 1 ≤ sz) (hnb : 1 ≤ nb) (h : (nb - 1) * sz ≤ deg) :
    ∑ j ∈ Finset.range nb, (X : ℤ[X]) ^ (j * sz) * toPoly (sub f (j * sz)) (bd deg sz nb j) = toPoly f deg := by
  obtain ⟨n, rfl⟩ : ∃ n, nb = n + 1 := ⟨nb - 1, by omega⟩
  rw [Nat.add_sub_cancel] at h
  rw [Finset.sum_range_succ]
  have e1 : ∀ m ≤ n, ∑ j ∈ Finset.range m, (X : ℤ[X]) ^ (j * sz) * toPoly (sub f (j * sz)) (bd deg sz (n + 1) j)
      = ∑ i ∈ Finset.range (m * sz), C (f i) * X ^ i := by
    intro m
    induction m with
    | zero => simp
    | succ m ih =>
      intro hm
      rw [Finset.sum_range_succ, ih (by omega), Nat.succ_mul, Finset.sum_range_add]
      congr 1
      unfold bd toPoly
      rw [if_pos (by omega), show sz - 1 + 1 = sz by omega, Finset.mul_sum]
      refine Finset.sum_congr rfl fun i _ => ?_
      unfold sub
      rw [pow_add]; ring
  rw [e1 n le_rfl]
  unfold bd toPoly
  rw [if_neg (by omega), Nat.add_sub_cancel, show deg + 1 = n * sz + (deg - n * sz + 1) by omega,
    Finset.sum_range_add _ (n * sz)]
  congr 1
  rw [Finset.mul_sum]
  refine Finset.sum_congr rfl fun i _ => ?_
  unfold sub
  rw [pow_add]; ring

theorem sum_pairs {M : Type*} [AddCommMonoid M] (a : ℕ → M) (m : ℕ) :
    ∑ j ∈ Finset.range (2 * m), a j = ∑ t ∈ Finset.range m, (a (2 * t) + a (2 * t + 1)) := by
  induction m with
  | zero => simp
  | succ m ih =>
    rw [Finset.sum_range_succ, ← ih, Nat.mul_succ, Finset.sum_range_succ, Finset.sum_range_succ, add_assoc]

theorem level_region (tab : ℕ → ℤ) (sz m deg : ℕ) (f : ℕ → ℤ) (hsz : 1 ≤ sz)
    (t : ℕ) (ht : t < m) (x : ℕ) (h1 : 2 * t * sz ≤ x)
    (h2 : x ≤ 2 * t * sz + (sz + if t + 1 = m then deg - (2 * m - 1) * sz else sz - 1)) :
    level tab sz (2 * m) deg f x
      = combine tab sz (2 * t * sz) (if t + 1 = m then deg - (2 * m - 1) * sz else sz - 1) f x := by
  unfold level
  rw [Nat.mul_div_cancel_left m (by omega)]
  refine (fold_regions (l := List.range m)
    (fun c f => combine tab sz (2 * c * sz) (if c + 1 = m then deg - (2 * m - 1) * sz else sz - 1) f)
    (fun c => 2 * c * sz) (fun c => 2 * c * sz + sz + if c + 1 = m then deg - (2 * m - 1) * sz else sz - 1)
    (fun c f x hx => combine_outside _ _ _ _ _ _ hx)
    (fun c f f' h x h1 h2 => combine_local _ _ _ _ _ _ hsz h x h1 h2) ?_ f).1 t (List.mem_range.mpr ht) x h1
    (by omega)
  refine List.Pairwise.imp_of_mem ?_ (List.pairwise_lt_range)
  intro a b ha hb hab
  have := List.mem_range.mp hb
  left
  rw [if_neg (by omega)]
  have : 2 * (a + 1) * sz ≤ 2 * b * sz := Nat.mul_le_mul_right _ (by omega)
  have e : 2 * (a + 1) * sz = 2 * a * sz + sz + sz := by ring
  omega

theorem level_Q (tab : ℕ → ℤ) (sz m deg : ℕ) (f : ℕ → ℤ) (hsz : 1 ≤ sz) (hm : 1 ≤ m)
    (hdeg : (2 * m - 1) * sz ≤ deg) (htab : toPoly tab sz = (X + 1) ^ sz) :
    Q (level tab sz (2 * m) deg f) deg (2 * sz) m = Q f deg sz (2 * m) := by
  unfold Q
  rw [sum_pairs]
  refine Finset.sum_congr rfl fun t ht => ?_
  have ht := Finset.mem_range.mp ht
  set nd := if t + 1 = m then deg - (2 * m - 1) * sz else sz - 1 with hnd
  have hbd : bd deg (2 * sz) m t = sz + nd := by
    unfold bd
    rw [hnd]
    obtain ⟨n, rfl⟩ : ∃ n, m = n + 1 := ⟨m - 1, by omega⟩
    have e1 : (2 * (n + 1) - 1) * sz = n * (2 * sz) + sz := by
      rw [show 2 * (n + 1) - 1 = 2 * n + 1 by omega]; ring
    rw [Nat.add_sub_cancel]
    by_cases h : t + 1 = n + 1
    · rw [if_neg (by omega), if_pos h]; omega
    · rw [if_pos (by omega), if_neg h]; omega
  have hb0 : bd deg sz (2 * m) (2 * t) = sz - 1 := by unfold bd; rw [if_pos (by omega)]
  have hb1 : bd deg sz (2 * m) (2 * t + 1) = nd := by
    unfold bd
    rw [hnd]
    by_cases h : t + 1 = m
    · rw [if_neg (by omega), if_pos h]
    · rw [if_pos (by omega), if_neg h]
  rw [hbd, hb0, hb1, show t * (2 * sz) = 2 * t * sz by ring, show (2 * t + 1) * sz = 2 * t * sz + sz by ring]
  have : toPoly (sub (level tab sz (2 * m) deg f) (2 * t * sz)) (sz + nd)
      = toPoly (sub (combine tab sz (2 * t * sz) nd f) (2 * t * sz)) (sz + nd) :=
    sub_congr fun x h1 h2 => level_region tab sz m deg f hsz t ht x h1 h2
  rw [this, combine_poly _ _ _ _ _ hsz, htab, pow_add]
  ring

theorem combine_eq_level (tab : ℕ → ℤ) (sz deg : ℕ) (f : ℕ → ℤ) :
    combine tab sz 0 (deg - sz) f = level tab sz 2 deg f := by
  unfold level
  simp [List.range_succ]

theorem levels_spec (tab : ℕ → ℕ → ℤ) (deg n : ℕ) : ∀ (i sz : ℕ) (f : ℕ → ℤ), 1 ≤ sz →
    (2 ^ (n + 1) - 1) * sz ≤ deg →
    (∀ t ≤ n, toPoly (tab (i + t)) (sz * 2 ^ t) = (X + 1) ^ (sz * 2 ^ t)) →
    let r := levels tab deg n i sz (2 ^ (n + 1)) f
    toPoly (combine (tab (i + n)) r.2 0 (deg - r.2) r.1) deg = Q f deg sz (2 ^ (n + 1)) := by
  induction n with
  | zero =>
    intro i sz f hsz hdeg htab
    have h0 := htab 0 le_rfl
    simp only [pow_zero, mul_one, add_zero] at h0
    simp only [levels, add_zero, zero_add, pow_one] at *
    rw [combine_eq_level]
    have := level_Q (tab i) sz 1 deg f hsz le_rfl (by simpa using hdeg) h0
    rw [mul_one] at this
    rw [← this]
    unfold Q
    simp only [Finset.range_one, Finset.sum_singleton, zero_mul, pow_zero, one_mul]
    have hbd : bd deg (2 * sz) 1 0 = deg := by simp [bd]
    rw [hbd]
    exact toPoly_congr fun i _ => by simp [sub]
  | succ n ih =>
    intro i sz f hsz hdeg htab
    simp only [levels]
    have hp : (2 : ℕ) ^ (n + 1 + 1) / 2 = 2 ^ (n + 1) := by rw [pow_succ _ (n + 1)]; omega
    have hpos : 1 ≤ 2 ^ (n + 1) := Nat.one_le_two_pow
    have hdeg' : (2 * 2 ^ (n + 1) - 1) * sz ≤ deg := by rw [← pow_succ']; exact hdeg
    have h0 := htab 0 (Nat.zero_le _)
    simp only [pow_zero, mul_one, add_zero] at h0
    have hQ := level_Q (tab i) sz (2 ^ (n + 1)) deg f hsz hpos hdeg' h0
    rw [← pow_succ'] at hQ
    have := ih (i + 1) (2 * sz) (level (tab i) sz (2 ^ (n + 1 + 1)) deg f) (by omega) ?_ ?_
    · rw [hp, show i + (n + 1) = i + 1 + n by omega]
      rw [← hQ]
      exact this
    · refine le_trans ?_ hdeg'
      generalize 2 ^ (n + 1) = P at *
      obtain ⟨q, rfl⟩ : ∃ q, P = q + 1 := ⟨P - 1, by omega⟩
      rw [Nat.add_sub_cancel, show 2 * (q + 1) - 1 = 2 * q + 1 by omega]
      nlinarith
    · intro t ht
      have := htab (t + 1) (by omega)
      rw [show i + 1 + t = i + (t + 1) by omega, show 2 * sz * 2 ^ t = sz * 2 ^ (t + 1) by ring]
      exact this

theorem first_loop_Q (deg sz nb : ℕ) (f : ℕ → ℤ) (hsz : 1 ≤ sz) (hnb : 1 ≤ nb) (h : (nb - 1) * sz ≤ deg) :
    Q ((List.range nb).foldl
      (fun f i => blockShift (i * sz) (if i + 1 < nb then sz - 1 else deg - (nb - 1) * sz) f) f) deg sz nb
      = (toPoly f deg).comp (X + 1) := by
  rw [← blocks_sum f deg sz nb hsz hnb h]
  unfold Q
  simp only [sum_comp, mul_comp, pow_comp, X_comp]
  refine Finset.sum_congr rfl fun j hj => ?_
  congr 1
  rw [← blockShift_poly]
  refine sub_congr fun x h1 h2 => ?_
  refine (fold_regions (l := List.range nb)
    (fun i f => blockShift (i * sz) (if i + 1 < nb then sz - 1 else deg - (nb - 1) * sz) f)
    (fun i => i * sz) (fun i => i * sz + if i + 1 < nb then sz - 1 else deg - (nb - 1) * sz)
    (fun i f x hx => blockShift_outside _ _ _ _ hx)
    (fun i f f' h x h1 h2 => blockShift_local _ _ _ _ h x h1 h2) ?_ f).1 j
    (List.mem_range.mpr (Finset.mem_range.mp hj)) x h1 h2
  refine List.Pairwise.imp_of_mem ?_ (List.pairwise_lt_range)
  intro a b ha hb hab
  have := List.mem_range.mp hb
  left
  rw [if_pos (by omega)]
  have : (a + 1) * sz ≤ b * sz := Nat.mul_le_mul_right _ (by omega)
  rw [Nat.succ_mul] at this
  omega

/-- The divide and conquer shift computes `P(X + 1)`, provided the table holds the powers of `X + 1`. -/
theorem dac_spec (tab : ℕ → ℕ → ℤ) (f : ℕ → ℤ) (deg sz : ℕ) (hdeg : 1 ≤ deg) (hsz : 2 ≤ sz ∨ deg ≤ sz)
    (htab : ∀ i, i < Nat.log 2 (deg / sz) → toPoly (tab i) (sz * 2 ^ i) = (X + 1) ^ (sz * 2 ^ i)) :
    ∃ g, dac tab f deg sz = some g ∧ toPoly g deg = (toPoly f deg).comp (X + 1) := by
  unfold dac
  simp only
  by_cases hnb : numBlocks deg sz ≤ 1
  · rw [if_pos hnb]
    exact ⟨naive f deg, by simp [taylorNaive, show deg ≠ 0 by omega], naive_poly f deg⟩
  · have hds : ¬ deg ≤ sz := by
      intro h; unfold numBlocks at hnb; rw [if_pos h] at hnb; omega
    have hsz : 2 ≤ sz := hsz.resolve_right hds
    rw [if_neg hnb, if_neg (by omega)]
    refine ⟨_, rfl, ?_⟩
    have hnbe : numBlocks deg sz = 2 ^ Nat.log 2 (deg / sz) := by unfold numBlocks; rw [if_neg hds]
    have hL : Nat.log 2 (deg / sz) ≠ 0 := by
      intro h; rw [hnbe, h] at hnb; simp at hnb
    obtain ⟨n, hn⟩ : ∃ n, Nat.log 2 (deg / sz) = n + 1 := ⟨_, (Nat.succ_pred_eq_of_ne_zero hL).symm⟩
    have hle : 2 ^ (n + 1) * sz ≤ deg := by
      have h1 : 2 ^ Nat.log 2 (deg / sz) ≤ deg / sz :=
        Nat.pow_log_le_self 2 (Nat.div_pos (by omega) (by omega)).ne'
      rw [hn] at h1
      exact (Nat.mul_le_mul_right sz h1).trans (Nat.div_mul_le_self deg sz)
    have hle' : (2 ^ (n + 1) - 1) * sz ≤ deg := (Nat.mul_le_mul_right sz (Nat.sub_le _ _)).trans hle
    rw [hnbe, hn, Nat.log_pow (by omega), Nat.add_sub_cancel]
    have := levels_spec tab deg n 0 sz ((List.range (2 ^ (n + 1))).foldl
      (fun f i => blockShift (i * sz) (if i + 1 < 2 ^ (n + 1) then sz - 1 else deg - (2 ^ (n + 1) - 1) * sz) f) f)
      (by omega) hle' fun t ht => by rw [zero_add]; exact htab t (by omega)
    simp only [zero_add] at this
    rw [this, first_loop_Q deg sz (2 ^ (n + 1)) f (by omega) Nat.one_le_two_pow hle']

/-! ### the table -/

theorem shiftTab_spec (pwx i : ℕ) : toPoly (shiftTab pwx i) (pwx * 2 ^ i) = (X + 1) ^ (pwx * 2 ^ i) := by
  induction i with
  | zero =>
    simp only [shiftTab, pow_zero, mul_one]
    rw [naive_poly]
    have : toPoly (shift0 pwx) pwx = X ^ pwx := by
      ext j
      rw [coeff_toPoly, coeff_X_pow, shift0]
      split <;> split <;> simp_all
    rw [this]; simp
  | succ i ih =>
    simp only [shiftTab]
    have := convMul_poly (shiftTab pwx i) (pwx * 2 ^ i) (shiftTab pwx i) (pwx * 2 ^ i)
    rw [show pwx * 2 ^ (i + 1) = pwx * 2 ^ i + pwx * 2 ^ i by ring, this, ih, ← pow_add]

theorem degPower_spec : ∀ deg, 1 ≤ deg → ∃ p, degPower deg = some p ∧ p ≤ 256 ∧ p ≤ deg ∧
    (deg ≤ 256 → p = deg) ∧ (256 < deg → 128 ≤ p) := by
  intro deg
  induction deg using Nat.strong_induction_on with
  | _ deg ih =>
    intro h
    obtain ⟨n, rfl⟩ : ∃ n, deg = n + 1 := ⟨deg - 1, by omega⟩
    rw [degPower]
    split
    · obtain ⟨p, h1, h2, h3, h4, h5⟩ := ih ((n + 1) / 2) (by omega) (by omega)
      refine ⟨p, h1, h2, by omega, fun _ => by omega, fun _ => ?_⟩
      by_cases hc : (n + 1) / 2 ≤ 256
      · rw [h4 hc]; omega
      · exact h5 (by omega)
    · exact ⟨n + 1, rfl, by omega, le_rfl, fun _ => rfl, fun _ => by omega⟩

end Verif.UTaylor
