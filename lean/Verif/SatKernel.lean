import Verif.Echelon
import Mathlib.LinearAlgebra.Finsupp.LinearCombination
import Mathlib.LinearAlgebra.Pi
import Mathlib.Algebra.BigOperators.Pi

/-! Model of the second part of `exact_sparse_reduced_echelon_form_sat_ff_32`, la_ff_32.c 2866-2971: the
kernel of a list of rows, by an elimination which records the combinations. -/

namespace Verif.SatKernel
open Verif.RowReduce Verif.Normalize Verif.ModInverse Verif.Echelon

/-! ### The code -/

/-- A new pivot: its row (`pivs[i]`, `pivcf`) and the combination of rows it stands for (`mulh`, `mulcf`). -/
structure TPiv where
  row : Row
  mul : Row

/-- Writing a sparse row from columns `a` to `b` with reduction, la_ff_32.c 1430-1442 and 1458-1470. -/
def tmodRow (p a b : Nat) (dr : Nat → Int) : Row :=
  ((List.range' a (b - a)).map fun c => (c, (Int.tmod (dr c) p).toNat)).filter fun t => decide (t.2 ≠ 0)

/-- The column loop of `reduce_dense_row_by_known_pivots_sparse_sat_ff_31_bit`, la_ff_32.c 1276-1420: it
stops at the first column without pivot. -/
def trackLoop (p : Nat) (pivs : Nat → Option TPiv) :
    Nat → Nat → (Nat → Int) → (Nat → Int) → Option ((Nat → Int) × (Nat → Int) × Option Nat)
  | 0, _, dr, drm => some (dr, drm, none)
  | cnt + 1, i, dr, drm =>
    let x := if dr i ≠ 0 then Int.tmod (dr i) p else dr i
    let dr := Function.update dr i x
    if x = 0 then trackLoop p pivs cnt (i + 1) dr drm
    else match pivs i with
      | none => some (dr, drm, some i)
      | some t => (elim31 p x t.row dr).bind fun dr => (elim31 p x t.mul drm).bind fun drm =>
          trackLoop p pivs cnt (i + 1) (Function.update dr i 0) drm

/-- One row, la_ff_32.c 2909-2971: `k` is its position among the saturation elements (`tmp_pos`), `mc` the
column of its multiplier, `ld` the number of multipliers.  The arrays `mulh`, `mulcf`, `pivcf` have `ncols`
entries (2903-2905) and are accessed at `k`: otherwise undefined behaviour, `none`.  Result: the pivots and
the new element of the kernel, if any.  The compare-and-swap (2969) always succeeds, the loop is not
parallel. -/
def trackRow (p ncols ld : Nat) (pivs : Nat → Option TPiv) (k mc : Nat) (r : Row) :
    Option ((Nat → Option TPiv) × Option Row) :=
  if ncols ≤ k then none
  else (trackLoop p pivs (ncols - headCol r) (headCol r) (fill r) (Function.update (fun _ => 0) mc 1)).bind fun x =>
    match x.2.2 with
    | none => (normSparse 64 32 p ((tmodRow p 0 ld x.2.1).map Prod.snd)).map fun cs =>
        (pivs, some (((tmodRow p 0 ld x.2.1).map Prod.fst).zip cs))
    | some i =>
      match tmodRow p i ncols x.1 with
      | [] => none
      | t :: r' =>
        if t.2 = 1 then some (Function.update pivs i (some ⟨t :: r', tmodRow p 0 ld x.2.1⟩), none)
        else (modInv 64 32 t.2 p).bind fun inv => (normRow 64 32 p (t :: r')).map fun row =>
          (Function.update pivs i (some ⟨row,
            (tmodRow p 0 ld x.2.1).map fun u => (u.1, u.2 * inv.toNat % 2 ^ 64 % p % 2 ^ 32)⟩), none)

/-- The loop over the rows, la_ff_32.c 2909-2971. -/
def kernelLoop (p ncols ld : Nat) : List (Nat × Nat × Row) → (Nat → Option TPiv) → List Row →
    Option (List Row)
  | [], _, K => some K
  | q :: l, pivs, K => (trackRow p ncols ld pivs q.1 q.2.1 q.2.2).bind fun x =>
      kernelLoop p ncols ld l x.1 (K ++ x.2.toList)

/-! ### Rows and vectors -/

theorem mem_tmodRow {p a b : Nat} {dr : Nat → Int} {t : Nat × Nat} :
    t ∈ tmodRow p a b dr ↔ a ≤ t.1 ∧ t.1 < b ∧ t.2 = (Int.tmod (dr t.1) p).toNat ∧ t.2 ≠ 0 := by
  unfold tmodRow
  rw [List.mem_filter, List.mem_map]
  constructor
  · rintro ⟨⟨c, hc, rfl⟩, h⟩
    rw [List.mem_range'_1] at hc
    exact ⟨hc.1, by simp only; omega, rfl, by simpa using h⟩
  · rintro ⟨h1, h2, h3, h4⟩
    refine ⟨⟨t.1, ?_, ?_⟩, by simpa using h4⟩
    · rw [List.mem_range'_1]; omega
    · rw [← h3]

theorem tmodRow_sorted (p a b : Nat) (dr : Nat → Int) : ((tmodRow p a b dr).map Prod.fst).Pairwise (· < ·) := by
  unfold tmodRow
  rw [List.pairwise_map]
  apply List.Pairwise.filter
  rw [List.pairwise_map]
  exact List.pairwise_lt_range'

theorem rvec_filter (p : Nat) : ∀ r : Row, rvec p (r.filter fun t => decide (t.2 ≠ 0)) = rvec p r
  | [] => rfl
  | t :: r => by
    rw [List.filter_cons]
    by_cases h : t.2 = 0
    · rw [if_neg (by simpa using h), rvec_filter p r, rvec_cons, h, Nat.cast_zero, Pi.single_zero, zero_add]
    · rw [if_pos (by simpa using h), rvec_cons, rvec_cons, rvec_filter p r]

theorem rvec_range (p : Nat) (f : Nat → Nat) : ∀ (cnt a : Nat) (c : Nat),
    rvec p ((List.range' a cnt).map fun c => (c, f c)) c =
      if a ≤ c ∧ c < a + cnt then ((f c : Nat) : ZMod p) else 0
  | 0, a, c => by
    rw [if_neg (by omega)]; rfl
  | cnt + 1, a, c => by
    rw [List.range'_succ, List.map_cons, rvec_cons, Pi.add_apply, rvec_range p f cnt (a + 1) c]
    by_cases h : c = a
    · subst h
      rw [Pi.single_eq_same, if_neg (by omega), if_pos (by omega), add_zero]
    · rw [Pi.single_eq_of_ne h, zero_add]
      by_cases h2 : a ≤ c ∧ c < a + (cnt + 1)
      · rw [if_pos h2, if_pos (by omega)]
      · rw [if_neg h2, if_neg (by omega)]

theorem rvec_tmodRow {p a b : Nat} {dr : Nat → Int} (hp : 0 < p) (h0 : ∀ c, 0 ≤ dr c)
    (hz : ∀ c, c < a ∨ b ≤ c → dr c = 0) : rvec p (tmodRow p a b dr) = vec p dr := by
  unfold tmodRow
  rw [rvec_filter]
  funext c
  rw [rvec_range]
  unfold vec
  split_ifs with h
  · have hpp : (0 : Int) < p := by exact_mod_cast hp
    rw [Int.tmod_eq_emod_of_nonneg (h0 c)]
    have : (((dr c % p).toNat : Int) : ZMod p) = ((dr c : Int) : ZMod p) := by
      rw [Int.toNat_of_nonneg (Int.emod_nonneg _ hpp.ne'), ZMod.intCast_mod]
    rw [← this, Int.cast_natCast]
  · rw [hz c (by omega), Int.cast_zero]

/-- A sparse row with increasing columns below `b`, no zero coefficient. -/
structure SRow (p b : Nat) (r : Row) : Prop where
  sorted : (r.map Prod.fst).Pairwise (· < ·)
  bound : ∀ t ∈ r, t.1 < b ∧ 0 < t.2 ∧ t.2 < p

theorem tmodRow_srow {p a b : Nat} {dr : Nat → Int} (hp : 0 < p) (h0 : ∀ c, 0 ≤ dr c) :
    SRow p b (tmodRow p a b dr) := by
  refine ⟨tmodRow_sorted _ _ _ _, fun t ht => ?_⟩
  obtain ⟨h1, h2, h3, h4⟩ := mem_tmodRow.mp ht
  refine ⟨h2, Nat.pos_of_ne_zero h4, ?_⟩
  have hpp : (0 : Int) < p := by exact_mod_cast hp
  rw [Int.tmod_eq_emod_of_nonneg (h0 t.1)] at h3
  have := Int.emod_lt_of_pos (dr t.1) hpp
  have := Int.emod_nonneg (dr t.1) hpp.ne'
  omega

/-- The combination `∑ c_k v_k` of the rows. -/
def combL (p ld : Nat) (v : Nat → Nat → ZMod p) : (Nat → ZMod p) →ₗ[ZMod p] (Nat → ZMod p) :=
  ∑ k ∈ Finset.range ld, (LinearMap.proj (R := ZMod p) (φ := fun _ : Nat => ZMod p) k).smulRight (v k)

theorem combL_apply (p ld : Nat) (v : Nat → Nat → ZMod p) (c : Nat → ZMod p) :
    combL p ld v c = ∑ k ∈ Finset.range ld, c k • v k := by
  unfold combL
  rw [LinearMap.sum_apply]
  rfl

theorem combL_single {p ld : Nat} (v : Nat → Nat → ZMod p) {k : Nat} (hk : k < ld) (x : ZMod p) :
    combL p ld v (Pi.single k x) = x • v k := by
  rw [combL_apply, Finset.sum_eq_single k]
  · rw [Pi.single_eq_same]
  · intro j _ hj; rw [Pi.single_eq_of_ne hj, zero_smul]
  · intro h; exact absurd (Finset.mem_range.mpr hk) h

/-! ### Invariants -/

/-- The combinations of the pivots. -/
def mulSpan (p : Nat) (pivs : Nat → Option TPiv) : Submodule (ZMod p) (Nat → ZMod p) :=
  Submodule.span (ZMod p) { m | ∃ i t, pivs i = some t ∧ m = rvec p t.mul }

/-- The rows of the kernel. -/
def kerSpan (p : Nat) (K : List Row) : Submodule (ZMod p) (Nat → ZMod p) :=
  Submodule.span (ZMod p) { m | ∃ r ∈ K, m = rvec p r }

/-- Multipliers of the rows treated so far. -/
def unitSpan (p : Nat) (S : List Nat) : Submodule (ZMod p) (Nat → ZMod p) :=
  Submodule.span (ZMod p) { m | ∃ k ∈ S, m = Pi.single k 1 }

/-- The pivots are monic rows and stand for the combinations recorded. -/
structure TPivOk (p ncols ld : Nat) (v : Nat → Nat → ZMod p) (pivs : Nat → Option TPiv) : Prop where
  piv : ∀ i t, pivs i = some t → PivRow p ncols i t.row
  mul : ∀ i t, pivs i = some t → SRow p ld t.mul
  comb : ∀ i t, pivs i = some t → combL p ld v (rvec p t.mul) = rvec p t.row

/-- State of the loop over the rows: `S` are the multipliers treated so far. -/
structure KOk (p ncols ld : Nat) (v : Nat → Nat → ZMod p) (S : List Nat) (pivs : Nat → Option TPiv)
    (K : List Row) : Prop where
  piv : TPivOk p ncols ld v pivs
  ker : ∀ r ∈ K, r ≠ [] ∧ SRow p ld r ∧ combL p ld v (rvec p r) = 0
  span : mulSpan p pivs ⊔ kerSpan p K = unitSpan p S

/-- The column loop keeps `vec dr = combL (vec drm)`. -/
theorem trackLoop_spec {p ncols ld : Nat} (hp0 : 0 < p) (hp : (p : Int) * p < 2 ^ 62) {v : Nat → Nat → ZMod p}
    {pivs : Nat → Option TPiv} (hpiv : TPivOk p ncols ld v pivs) :
    ∀ (cnt i : Nat) (dr drm : Nat → Int), i + cnt = ncols → (∀ c, 0 ≤ dr c ∧ dr c < (p : Int) * p) →
      (∀ c, 0 ≤ drm c ∧ drm c < (p : Int) * p) → (∀ c, ld ≤ c → drm c = 0) → (∀ c, ncols ≤ c → dr c = 0) →
      (∀ c, c < i → dr c = 0) → vec p dr = combL p ld v (vec p drm) →
      ∃ dr' drm' np, trackLoop p pivs cnt i dr drm = some (dr', drm', np) ∧
        (∀ c, 0 ≤ dr' c ∧ dr' c < (p : Int) * p) ∧ (∀ c, 0 ≤ drm' c ∧ drm' c < (p : Int) * p) ∧
        (∀ c, ld ≤ c → drm' c = 0) ∧ (∀ c, ncols ≤ c → dr' c = 0) ∧
        vec p dr' = combL p ld v (vec p drm') ∧ vec p drm' - vec p drm ∈ mulSpan p pivs ∧
        (np = none → ∀ c, dr' c = 0) ∧
        (∀ j, np = some j → j < ncols ∧ pivs j = none ∧ 0 < dr' j ∧ dr' j < p ∧ ∀ c, c < j → dr' c = 0)
  | 0, i, dr, drm, hi, h1, h2, h3, h4, h5, h6 => by
    refine ⟨dr, drm, none, rfl, h1, h2, h3, h4, h6, by rw [sub_self]; exact Submodule.zero_mem _, ?_, ?_⟩
    · intro _ c
      by_cases hc : c < i
      · exact h5 c hc
      · exact h4 c (by omega)
    · intro j hj; exact absurd hj (by simp)
  | cnt + 1, i, dr, drm, hi, h1, h2, h3, h4, h5, h6 => by
    have hpp : (0 : Int) < p := by exact_mod_cast hp0
    have hx : (if dr i ≠ 0 then Int.tmod (dr i) p else dr i) = dr i % p := by
      split_ifs with h
      · exact Int.tmod_eq_emod_of_nonneg (h1 i).1
      · rw [not_not.mp h, Int.zero_emod]
    rw [trackLoop]
    simp only [hx]
    have hx0 : 0 ≤ dr i % p := Int.emod_nonneg _ hpp.ne'
    have hx1 : dr i % p < p := Int.emod_lt_of_pos _ hpp
    have hpsq : (p : Int) ≤ p * p := by nlinarith
    have hok' : ∀ c, 0 ≤ Function.update dr i (dr i % p) c ∧ Function.update dr i (dr i % p) c < (p : Int) * p := by
      intro c
      by_cases hc : c = i
      · subst hc; rw [Function.update_self]; exact ⟨hx0, by linarith⟩
      · rw [Function.update_of_ne hc]; exact h1 c
    have hvec : vec p (Function.update dr i (dr i % p)) = vec p dr := by
      rw [vec_update]
      have : (((dr i % p - dr i : Int)) : ZMod p) = 0 := by rw [Int.cast_sub, ZMod.intCast_mod, sub_self]
      rw [this, Pi.single_zero, add_zero]
    have hab : ∀ c, ncols ≤ c → Function.update dr i (dr i % p) c = 0 := fun c hc => by
      rw [Function.update_of_ne (by omega)]; exact h4 c hc
    have hbel : ∀ c, c < i → Function.update dr i (dr i % p) c = 0 := fun c hc => by
      rw [Function.update_of_ne (by omega)]; exact h5 c hc
    by_cases hz : dr i % p = 0
    · rw [if_pos hz]
      obtain ⟨dr', drm', np, e, a1, a2, a3, a4, a5, a6, a7, a8⟩ := trackLoop_spec hp0 hp hpiv cnt (i + 1)
        (Function.update dr i (dr i % p)) drm (by omega) hok' h2 h3 hab (fun c hc => by
          by_cases hci : c = i
          · subst hci; rw [Function.update_self]; exact hz
          · exact hbel c (by omega)) (by rw [hvec]; exact h6)
      exact ⟨dr', drm', np, e, a1, a2, a3, a4, a5, a6, a7, a8⟩
    · rw [if_neg hz]
      rcases hpi : pivs i with _ | t
      · refine ⟨_, drm, some i, rfl, hok', h2, h3, hab, by rw [hvec]; exact h6,
          by rw [sub_self]; exact Submodule.zero_mem _, fun h => by simp at h, ?_⟩
        intro j hj
        obtain rfl := Option.some.inj hj
        refine ⟨by omega, hpi, ?_, ?_, hbel⟩
        · rw [Function.update_self]; exact lt_of_le_of_ne hx0 (Ne.symm hz)
        · rw [Function.update_self]; exact hx1
      · have hr := hpiv.piv i t hpi
        have hm := hpiv.mul i t hpi
        obtain ⟨d1, e1, b1, b2, b3⟩ := foldlM_sub31 p hp (dr i % p) hx0 hx1 t.row _ (fun u hu => (hr.bound u hu).2) hok'
        obtain ⟨d2, e2, c1, c2, c3⟩ := foldlM_sub31 p hp (dr i % p) hx0 hx1 t.mul drm (fun u hu => (hm.bound u hu).2.2) h2
        have e1' : elim31 p (dr i % p) t.row (Function.update dr i (dr i % p)) = some d1 := e1
        have e2' : elim31 p (dr i % p) t.mul drm = some d2 := e2
        simp only [e1', e2', Option.bind_some]
        have hdi : ((d1 i : Int) : ZMod p) = 0 := by
          have := congrFun b2 i
          rw [hvec, Pi.sub_apply, Pi.smul_apply, hr.at_head, smul_eq_mul, mul_one] at this
          unfold vec at this
          rw [this, ZMod.intCast_mod, sub_self]
        have hvec2 : vec p (Function.update d1 i 0) = vec p d1 := by
          rw [vec_update, zero_sub, Int.cast_neg, hdi, neg_zero, Pi.single_zero, add_zero]
        obtain ⟨dr', drm', np, e, a1, a2, a3, a4, a5, a6, a7, a8⟩ := trackLoop_spec hp0 hp hpiv cnt (i + 1)
          (Function.update d1 i 0) d2 (by omega) (fun c => by
            by_cases hc : c = i
            · subst hc; rw [Function.update_self]; exact ⟨le_rfl, by nlinarith⟩
            · rw [Function.update_of_ne hc]; exact b1 c) c1
          (fun c hc => by
            rw [c3 c (fun u hu => by have := (hm.bound u hu).1; omega)]; exact h3 c hc)
          (fun c hc => by
            rw [Function.update_of_ne (by omega), b3 c (fun u hu => by have := (hr.bound u hu).1; omega)]
            exact hab c hc)
          (fun c hc => by
            by_cases hci : c = i
            · subst hci; rw [Function.update_self]
            · rw [Function.update_of_ne hci, b3 c (fun u hu => by have := hr.col_ge u hu; omega)]
              exact hbel c (by omega))
          (by rw [hvec2, b2, hvec, c2, map_sub, map_smul, h6, hpiv.comb i t hpi])
        refine ⟨dr', drm', np, e, a1, a2, a3, a4, a5, ?_, a7, a8⟩
        have h8 : vec p d2 - vec p drm ∈ mulSpan p pivs := by
          rw [c2, sub_sub_cancel_left]
          exact Submodule.neg_mem _ (Submodule.smul_mem _ _ (Submodule.subset_span ⟨i, t, hpi, rfl⟩))
        have := Submodule.add_mem _ a6 h8
        rwa [sub_add_sub_cancel] at this

theorem mulSpan_update {p : Nat} {pivs : Nat → Option TPiv} {i : Nat} (h : pivs i = none) (t : TPiv) :
    mulSpan p (Function.update pivs i (some t)) = mulSpan p pivs ⊔ Submodule.span (ZMod p) {rvec p t.mul} := by
  unfold mulSpan
  rw [← Submodule.span_union]
  congr 1
  ext m
  constructor
  · rintro ⟨j, u, hj, rfl⟩
    by_cases hji : j = i
    · subst hji; rw [Function.update_self] at hj
      rw [← Option.some.inj hj]
      exact Or.inr rfl
    · rw [Function.update_of_ne hji] at hj
      exact Or.inl ⟨j, u, hj, rfl⟩
  · rintro (⟨j, u, hj, rfl⟩ | h')
    · refine ⟨j, u, ?_, rfl⟩
      rw [Function.update_of_ne]
      · exact hj
      · rintro rfl; rw [h] at hj; exact absurd hj (by simp)
    · rw [Set.mem_singleton_iff] at h'
      exact ⟨i, t, Function.update_self _ _ _, h'⟩

theorem kerSpan_append (p : Nat) (K : List Row) (r : Row) :
    kerSpan p (K ++ [r]) = kerSpan p K ⊔ Submodule.span (ZMod p) {rvec p r} := by
  unfold kerSpan
  rw [← Submodule.span_union]
  congr 1
  ext m
  simp [or_and_right, exists_or, or_comm]

theorem unitSpan_append (p : Nat) (S : List Nat) (k : Nat) :
    unitSpan p (S ++ [k]) = unitSpan p S ⊔ Submodule.span (ZMod p) {Pi.single k 1} := by
  unfold unitSpan
  rw [← Submodule.span_union]
  congr 1
  ext m
  simp [or_and_right, exists_or, or_comm]

theorem unitSpan_zero {p : Nat} {S : List Nat} {k : Nat} (hk : k ∉ S) {m : Nat → ZMod p} (hm : m ∈ unitSpan p S) :
    m k = 0 := by
  refine span_vanish ?_ hm
  rintro w ⟨j, hj, rfl⟩
  rw [Pi.single_eq_of_ne]
  rintro rfl
  exact hk hj

/-- Adding `u • (e + s)` with `s` in the space and `u` a unit is adding `e`. -/
theorem sup_span_shift {p : Nat} [Fact p.Prime] (W : Submodule (ZMod p) (Nat → ZMod p)) {e x y : Nat → ZMod p}
    (hs : x - e ∈ W) {u : ZMod p} (hu : u ≠ 0) (hy : y = u • x) :
    W ⊔ Submodule.span (ZMod p) {y} = W ⊔ Submodule.span (ZMod p) {e} := by
  apply le_antisymm
  · refine sup_le le_sup_left ?_
    rw [Submodule.span_singleton_le_iff_mem, hy]
    apply Submodule.smul_mem
    rw [← sub_add_cancel x e]
    exact Submodule.add_mem _ (Submodule.mem_sup_left hs) (Submodule.mem_sup_right (Submodule.mem_span_singleton_self e))
  · refine sup_le le_sup_left ?_
    rw [Submodule.span_singleton_le_iff_mem]
    have : e = u⁻¹ • y - (x - e) := by
      rw [hy, smul_smul, inv_mul_cancel₀ hu, one_smul]; abel
    rw [this]
    exact Submodule.sub_mem _ (Submodule.mem_sup_right (Submodule.smul_mem _ _ (Submodule.mem_span_singleton_self y)))
      (Submodule.mem_sup_left hs)

theorem headCol_le {r : Row} (hs : (r.map Prod.fst).Pairwise (· < ·)) : ∀ t ∈ r, headCol r ≤ t.1 := by
  cases r with
  | nil => intro t ht; simp at ht
  | cons a r =>
    rw [List.map_cons, List.pairwise_cons] at hs
    intro t ht
    rcases List.mem_cons.mp ht with rfl | ht
    · exact le_rfl
    · exact (hs.1 t.1 (List.mem_map_of_mem ht)).le

/-- One row. -/
theorem trackRow_ok {p ncols ld : Nat} (hp : p.Prime) (hp31 : p < 2 ^ 31) {v : Nat → Nat → ZMod p} {S : List Nat}
    {pivs : Nat → Option TPiv} {K : List Row} (h : KOk p ncols ld v S pivs K) {k mc : Nat} {r : Row}
    (hk : k < ncols) (hmc : mc < ld) (hS : mc ∉ S) (hne : r ≠ []) (hr : SRow p ncols r) (hv : v mc = rvec p r) :
    ∃ pivs' o, trackRow p ncols ld pivs k mc r = some (pivs', o) ∧ KOk p ncols ld v (S ++ [mc]) pivs' (K ++ o.toList) := by
  have hpf : Fact p.Prime := ⟨hp⟩
  have hpsq : (p : Int) * p < 2 ^ 62 := by
    have : (p : Int) < 2 ^ 31 := by exact_mod_cast hp31
    have h0 : (0 : Int) < p := by exact_mod_cast hp.pos
    nlinarith
  have hww : (p - 1) * (p - 1) < 2 ^ 64 := by
    have h1 : p - 1 ≤ 2 ^ 31 := by omega
    calc (p - 1) * (p - 1) ≤ 2 ^ 31 * 2 ^ 31 := Nat.mul_le_mul h1 h1
      _ < 2 ^ 64 := by norm_num
  have hhc : headCol r < ncols := by
    cases r with
    | nil => exact absurd rfl hne
    | cons t r => exact (hr.bound t List.mem_cons_self).1
  have hfr : ∀ c, 0 ≤ fill r c ∧ fill r c < (p : Int) := fill_range p hp.pos r fun t ht => (hr.bound t ht).2.2
  have h1p : (1 : Int) < p := by exact_mod_cast hp.one_lt
  have hvm : vec p (Function.update (fun _ => (0 : Int)) mc 1) = Pi.single mc 1 := by
    rw [vec_update]
    have : vec p (fun _ => (0 : Int)) = 0 := by funext c; simp [vec]
    rw [this, zero_add]; simp
  obtain ⟨dr', drm', np, e, a1, a2, a3, a4, a5, a6, a7, a8⟩ := trackLoop_spec hp.pos hpsq h.piv
    (ncols - headCol r) (headCol r) (fill r) (Function.update (fun _ => 0) mc 1) (by omega)
    (fun c => ⟨(hfr c).1, by have := (hfr c).2; nlinarith⟩)
    (fun c => by
      by_cases hc : c = mc
      · subst hc; rw [Function.update_self]; exact ⟨by norm_num, by nlinarith⟩
      · rw [Function.update_of_ne hc]; exact ⟨le_rfl, by nlinarith⟩)
    (fun c hc => by rw [Function.update_of_ne (by omega)])
    (fun c hc => fill_zero r c fun t ht => by have := (hr.bound t ht).1; omega)
    (fun c hc => fill_zero r c fun t ht => by have := headCol_le hr.sorted t ht; omega)
    (by rw [fill_vec p r (hr.sorted.imp fun h => h.ne), hvm, combL_single v hmc, one_smul, hv])
  rw [hvm] at a6
  have hm1 : rvec p (tmodRow p 0 ld drm') = vec p drm' := rvec_tmodRow hp.pos (fun c => (a2 c).1)
    (fun c hc => a3 c (by omega))
  have hm2 := tmodRow_srow (a := 0) (b := ld) (dr := drm') hp.pos (fun c => (a2 c).1)
  have hW : vec p drm' - Pi.single mc 1 ∈ mulSpan p pivs ⊔ kerSpan p K := Submodule.mem_sup_left a6
  have hmne : tmodRow p 0 ld drm' ≠ [] := by
    intro h0
    rw [h0, rvec_nil] at hm1
    rw [← hm1, zero_sub, h.span] at hW
    have := unitSpan_zero hS hW
    simp at this
  have hnorm : ∀ (t : Nat × Nat) (r' : Row), (∀ u ∈ t :: r', 0 < u.2 ∧ u.2 < p) → ∃ inv : Nat, modInv 64 32 t.2 p = some (inv : Int) ∧
      inv < p ∧ ((inv : Nat) : ZMod p) ≠ 0 := by
    intro t r' hr'
    obtain ⟨inv, h1, h2, h3⟩ := modInv_nat (w := 64) (out := 32) (by omega) (by omega) hp (hr' t List.mem_cons_self).1
      (hr' t List.mem_cons_self).2
    refine ⟨inv, h1, h2, ?_⟩
    intro h0
    rw [ZMod.natCast_eq_zero_iff] at h0
    have : p ∣ inv * t.2 := h0.mul_right _
    rw [Nat.dvd_iff_mod_eq_zero, h3] at this
    omega
  unfold trackRow
  rw [if_neg (by omega), e, Option.bind_some]
  rcases np with _ | i
  · -- an element of the kernel
    simp only
    have hz : combL p ld v (vec p drm') = 0 := by
      rw [← a5]; funext c; simp [vec, a7 rfl c]
    obtain ⟨t, m', hm'⟩ := List.exists_cons_of_ne_nil hmne
    rw [hm'] at hm1 hm2 ⊢
    obtain ⟨inv, i1, i2, i3⟩ := normSparse_spec (w := 64) (out := 32) (p := p) (r := m'.map Prod.snd) (by omega) (by omega)
      hww hp (hm2.bound t List.mem_cons_self).2.1 (fun b hb => by
        rw [← List.map_cons] at hb
        obtain ⟨u, hu, rfl⟩ := List.mem_map.mp hb
        exact (hm2.bound u hu).2.2)
    have hinv0 : ((inv : Nat) : ZMod p) ≠ 0 := by
      intro h0
      rw [ZMod.natCast_eq_zero_iff] at h0
      have : p ∣ inv * t.2 := h0.mul_right _
      rw [Nat.dvd_iff_mod_eq_zero, i2] at this
      omega
    have ez : (((t :: m').map Prod.fst).zip ((t.2 :: m'.map Prod.snd).map (fun b => b * inv % p))) =
        (t :: m').map (fun t => (t.1, t.2 * inv % p)) := zip_map_fst_map_snd _ (t :: m')
    have hrv : rvec p ((t :: m').map (fun t => (t.1, t.2 * inv % p))) = ((inv : Nat) : ZMod p) • vec p drm' := by
      rw [rvec_scale, hm1]
    refine ⟨pivs, some ((t :: m').map (fun t => (t.1, t.2 * inv % p))), ?_, h.piv, ?_, ?_⟩
    · rw [show (t :: m').map Prod.snd = t.2 :: m'.map Prod.snd from rfl, i3, Option.map_some, ez]
    · intro q hq
      rcases List.mem_append.mp hq with hq | hq
      · exact h.ker q hq
      · rw [Option.toList_some, List.mem_singleton] at hq
        subst hq
        refine ⟨by simp, ⟨?_, ?_⟩, ?_⟩
        · have : ((t :: m').map (fun t => (t.1, t.2 * inv % p))).map Prod.fst = (t :: m').map Prod.fst := by
            rw [List.map_map]; rfl
          rw [this]; exact hm2.sorted
        · intro u hu
          obtain ⟨w, hw, rfl⟩ := List.mem_map.mp hu
          refine ⟨(hm2.bound w hw).1, ?_, Nat.mod_lt _ hp.pos⟩
          apply Nat.pos_of_ne_zero
          intro h0
          rw [← Nat.dvd_iff_mod_eq_zero, hp.dvd_mul] at h0
          rcases h0 with h0 | h0
          · have := Nat.le_of_dvd (hm2.bound w hw).2.1 h0
            have := (hm2.bound w hw).2.2
            omega
          · rw [← ZMod.natCast_eq_zero_iff] at h0
            exact hinv0 h0
        · rw [hrv, map_smul, hz, smul_zero]
    · rw [Option.toList_some, kerSpan_append, ← sup_assoc, unitSpan_append, ← h.span]
      exact sup_span_shift _ hW hinv0 hrv
  · -- a pivot
    simp only
    obtain ⟨b1, b2, b3, b4, b5⟩ := a8 i rfl
    have hrow1 : rvec p (tmodRow p i ncols dr') = vec p dr' := rvec_tmodRow hp.pos (fun c => (a1 c).1)
      (fun c hc => by
        rcases hc with hc | hc
        · exact b5 c hc
        · exact a4 c hc)
    have hrow2 := tmodRow_srow (a := i) (b := ncols) (dr := dr') hp.pos (fun c => (a1 c).1)
    have hmem : (i, (dr' i).toNat) ∈ tmodRow p i ncols dr' := by
      rw [mem_tmodRow]
      refine ⟨le_rfl, b1, ?_, ?_⟩
      · simp only
        rw [Int.tmod_eq_emod_of_nonneg b3.le, Int.emod_eq_of_lt b3.le b4]
      · simp only; omega
    obtain ⟨t, r', hr'⟩ := List.exists_cons_of_ne_nil (List.ne_nil_of_mem hmem)
    have ht1 : t.1 = i := by
      have h1 := headCol_le hrow2.sorted _ hmem
      have h2 : i ≤ t.1 := (mem_tmodRow.mp (by rw [hr']; exact List.mem_cons_self : t ∈ tmodRow p i ncols dr')).1
      rw [hr'] at h1
      have h3 : headCol (t :: r') = t.1 := rfl
      simp only [h3] at h1
      omega
    rw [hr'] at hrow1 hrow2 ⊢
    simp only
    have hbd : ∀ u ∈ t :: r', 0 < u.2 ∧ u.2 < p := fun u hu => (hrow2.bound u hu).2
    -- common end: a scaled pair is entered
    have hend : ∀ (row : Row) (m : Row) (u : ZMod p), u ≠ 0 → row.map Prod.fst = (t :: r').map Prod.fst →
        (∃ r'', row = (t.1, 1) :: r'') → (∀ w ∈ row, 0 < w.2 ∧ w.2 < p) → rvec p row = u • vec p dr' →
        SRow p ld m → rvec p m = u • vec p drm' →
        KOk p ncols ld v (S ++ [mc]) (Function.update pivs i (some ⟨row, m⟩)) (K ++ (none : Option Row).toList) := by
      intro row m u hu h1 h2 h3 h4 h5 h6
      have hsr : (row.map Prod.fst).Pairwise (· < ·) := by rw [h1]; exact hrow2.sorted
      have hbr : ∀ w ∈ row, w.1 < ncols ∧ w.2 < p := by
        intro w hw
        refine ⟨?_, (h3 w hw).2⟩
        have : w.1 ∈ (t :: r').map Prod.fst := by rw [← h1]; exact List.mem_map_of_mem hw
        obtain ⟨x, hx, hx'⟩ := List.mem_map.mp this
        rw [← hx']; exact (hrow2.bound x hx).1
      refine ⟨⟨?_, ?_, ?_⟩, ?_, ?_⟩
      · intro j q hj
        by_cases hji : j = i
        · subst hji; rw [Function.update_self] at hj
          rw [← Option.some.inj hj]
          rw [ht1] at h2
          exact PivRow.of_sorted h2 hsr hbr
        · rw [Function.update_of_ne hji] at hj
          exact h.piv.piv j q hj
      · intro j q hj
        by_cases hji : j = i
        · subst hji; rw [Function.update_self] at hj
          rw [← Option.some.inj hj]
          exact h5
        · rw [Function.update_of_ne hji] at hj
          exact h.piv.mul j q hj
      · intro j q hj
        by_cases hji : j = i
        · subst hji; rw [Function.update_self] at hj
          rw [← Option.some.inj hj]
          simp only
          rw [h6, h4, map_smul, a5]
        · rw [Function.update_of_ne hji] at hj
          exact h.piv.comb j q hj
      · simpa using h.ker
      · rw [Option.toList_none, List.append_nil, mulSpan_update b2, unitSpan_append, ← h.span, sup_right_comm]
        exact sup_span_shift _ hW hu h6
    by_cases ht2 : t.2 = 1
    · rw [if_pos ht2]
      refine ⟨_, none, rfl, hend _ _ 1 one_ne_zero rfl ⟨r', by rw [← ht2]⟩ hbd (by rw [one_smul]; exact hrow1) hm2
        (by rw [one_smul]; exact hm1)⟩
    · rw [if_neg ht2]
      obtain ⟨inv, i1, i2, i3⟩ := hnorm t r' hbd
      obtain ⟨inv', j1, j2, j3⟩ := normSparse_spec (w := 64) (out := 32) (p := p) (r := r'.map Prod.snd) (by omega) (by omega)
        hww hp (hbd t List.mem_cons_self).1 (fun b hb => by
          rw [← List.map_cons] at hb
          obtain ⟨u, hu, rfl⟩ := List.mem_map.mp hb
          exact (hbd u hu).2)
      have hnr : normRow 64 32 p (t :: r') = some ((t :: r').map fun u => (u.1, u.2 * inv' % p)) := by
        unfold normRow
        simp only
        rw [if_pos ht2, show (t :: r').map Prod.snd = t.2 :: r'.map Prod.snd from rfl, j3, Option.map_some]
        exact congrArg some (zip_map_fst_map_snd _ (t :: r'))
      -- both inverses agree
      have hii : inv' = inv := by
        obtain ⟨x, h1, h2, h3⟩ := modInv_nat (w := 64) (out := 32) (by omega) (by omega) hp (hbd t List.mem_cons_self).1
          (hbd t List.mem_cons_self).2
        rw [i1] at h1
        have hx : inv = x := by exact_mod_cast Option.some.inj h1
        rw [← hx] at h3
        have hcast : ((inv' : Nat) : ZMod p) * ((t.2 : Nat) : ZMod p) = ((inv : Nat) : ZMod p) * ((t.2 : Nat) : ZMod p) := by
          rw [← Nat.cast_mul, ← Nat.cast_mul, ZMod.natCast_eq_natCast_iff', j2, h3]
        have ht0 : ((t.2 : Nat) : ZMod p) ≠ 0 := by
          rw [Ne, ZMod.natCast_eq_zero_iff]
          intro hd
          have := Nat.le_of_dvd (hbd t List.mem_cons_self).1 hd
          have := (hbd t List.mem_cons_self).2
          omega
        have := mul_right_cancel₀ ht0 hcast
        rwa [ZMod.natCast_eq_natCast_iff', Nat.mod_eq_of_lt j1, Nat.mod_eq_of_lt i2] at this
      rw [i1, Option.bind_some, hnr, Option.map_some, hii]
      have hmm : (tmodRow p 0 ld drm').map (fun u => (u.1, u.2 * (inv : Int).toNat % 2 ^ 64 % p % 2 ^ 32)) =
          (tmodRow p 0 ld drm').map (fun u => (u.1, u.2 * inv % p)) := by
        apply List.map_congr_left
        intro u hu
        rw [Int.toNat_natCast, mul_mod_small hww (hm2.bound u hu).2.2 i2,
          Nat.mod_eq_of_lt (lt_of_lt_of_le (Nat.mod_lt _ hp.pos) (by omega))]
      have hpos : ∀ (l : Row), (∀ u ∈ l, 0 < u.2 ∧ u.2 < p) → ∀ w ∈ l.map (fun u => (u.1, u.2 * inv % p)), 0 < w.2 ∧ w.2 < p := by
        intro l hl w hw
        obtain ⟨u, hu, rfl⟩ := List.mem_map.mp hw
        refine ⟨?_, Nat.mod_lt _ hp.pos⟩
        apply Nat.pos_of_ne_zero
        intro h0
        rw [← Nat.dvd_iff_mod_eq_zero, hp.dvd_mul] at h0
        rcases h0 with h0 | h0
        · have := Nat.le_of_dvd (hl u hu).1 h0
          have := (hl u hu).2
          omega
        · rw [← ZMod.natCast_eq_zero_iff] at h0
          exact i3 h0
      refine ⟨_, none, rfl, ?_⟩
      rw [hmm]
      refine hend _ _ ((inv : Nat) : ZMod p) i3 (by rw [List.map_map]; rfl) ?_ (hpos _ hbd) (by rw [rvec_scale, hrow1])
        ⟨?_, ?_⟩ (by rw [rvec_scale, hm1])
      · refine ⟨r'.map (fun u => (u.1, u.2 * inv % p)), ?_⟩
        rw [List.map_cons]
        rw [hii] at j2
        rw [Nat.mul_comm t.2 inv, j2]
      · have : ((tmodRow p 0 ld drm').map (fun u => (u.1, u.2 * inv % p))).map Prod.fst =
            (tmodRow p 0 ld drm').map Prod.fst := by rw [List.map_map]; rfl
        rw [this]; exact hm2.sorted
      · intro w hw
        have h1 := hpos _ (fun u hu => (hm2.bound u hu).2) w hw
        obtain ⟨u, hu, rfl⟩ := List.mem_map.mp hw
        exact ⟨(hm2.bound u hu).1, h1⟩

/-- The loop over the rows. -/
theorem kernelLoop_ok {p ncols ld : Nat} (hp : p.Prime) (hp31 : p < 2 ^ 31) {v : Nat → Nat → ZMod p} :
    ∀ (l : List (Nat × Nat × Row)) (S : List Nat) (pivs : Nat → Option TPiv) (K : List Row),
      KOk p ncols ld v S pivs K → (∀ q ∈ l, q.1 < ncols) →
      (∀ q ∈ l, q.2.1 < ld ∧ q.2.2 ≠ [] ∧ SRow p ncols q.2.2 ∧ v q.2.1 = rvec p q.2.2) →
      (S ++ l.map fun q => q.2.1).Nodup →
      ∃ K' pivs', kernelLoop p ncols ld l pivs K = some K' ∧
        KOk p ncols ld v (S ++ l.map fun q => q.2.1) pivs' K'
  | [], S, pivs, K, h, _, _, _ => ⟨K, pivs, rfl, by simpa using h⟩
  | q :: l, S, pivs, K, h, h1, h2, h3 => by
    obtain ⟨b1, b2, b3, b4⟩ := h2 q List.mem_cons_self
    have hS : q.2.1 ∉ S := by
      intro hm
      rw [List.map_cons, List.nodup_append] at h3
      exact h3.2.2 _ hm _ List.mem_cons_self rfl
    obtain ⟨pivs', o, e, h'⟩ := trackRow_ok hp hp31 h (h1 q List.mem_cons_self) b1 hS b2 b3 b4
    obtain ⟨K', pivs'', e', h''⟩ := kernelLoop_ok hp hp31 l (S ++ [q.2.1]) pivs' (K ++ o.toList) h'
      (fun q hq => h1 q (List.mem_cons_of_mem _ hq)) (fun q hq => h2 q (List.mem_cons_of_mem _ hq))
      (by simpa using h3)
    refine ⟨K', pivs'', ?_, by simpa using h''⟩
    rw [kernelLoop, e, Option.bind_some]
    exact e'

/-- If the loop does not run into undefined behaviour all positions are below `ncols`. -/
theorem kernelLoop_pos {p ncols ld : Nat} : ∀ (l : List (Nat × Nat × Row)) (pivs : Nat → Option TPiv) (K K' : List Row),
    kernelLoop p ncols ld l pivs K = some K' → ∀ q ∈ l, q.1 < ncols
  | [], _, _, _, _ => fun q hq => by simp at hq
  | a :: l, pivs, K, K', h => by
    rw [kernelLoop] at h
    by_cases ha : ncols ≤ a.1
    · unfold trackRow at h
      rw [if_pos ha] at h
      exact absurd h (by simp)
    · rw [Option.bind_eq_some_iff] at h
      obtain ⟨x, _, hx⟩ := h
      intro q hq
      rcases List.mem_cons.mp hq with rfl | hq
      · omega
      · exact kernelLoop_pos l _ _ _ hx q hq

/-- The combinations of the pivots are independent: one that vanishes is zero. -/
theorem mulSpan_inj {p ncols ld : Nat} {v : Nat → Nat → ZMod p} {pivs : Nat → Option TPiv}
    (h : TPivOk p ncols ld v pivs) {m : Nat → ZMod p} (hm : m ∈ mulSpan p pivs) (h0 : combL p ld v m = 0) : m = 0 := by
  classical
  -- as a combination of a family
  let g : Fin ncols → Nat → ZMod p := fun i => match pivs i with | none => 0 | some t => rvec p t.mul
  let w : Fin ncols → Nat → ZMod p := fun i => match pivs i with | none => 0 | some t => rvec p t.row
  have hgw : ∀ i, combL p ld v (g i) = w i := by
    intro i
    simp only [g, w]
    rcases hpi : pivs i with _ | t
    · simp
    · simp only; exact h.comb i t hpi
  have hle : mulSpan p pivs ≤ Submodule.span (ZMod p) (Set.range g) := by
    apply Submodule.span_le.mpr
    rintro x ⟨i, t, hi, rfl⟩
    have hlt := (h.piv i t hi).lt
    apply Submodule.subset_span
    refine ⟨⟨i, hlt⟩, ?_⟩
    simp only [g, hi]
  obtain ⟨a, ha⟩ := (Submodule.mem_span_range_iff_exists_fun (ZMod p)).mp (hle hm)
  have hw : ∑ i, a i • w i = 0 := by
    rw [← h0, ← ha, map_sum]
    exact Finset.sum_congr rfl fun i _ => by rw [map_smul, hgw]
  have key : ∀ k : Nat, ∀ i : Fin ncols, (i : Nat) = k → a i • g i = 0 := by
    intro k
    induction k using Nat.strong_induction_on with
    | _ k ih =>
      intro i hik
      rcases hpi : pivs i with _ | t
      · simp [g, hpi]
      · have hc := congrFun hw i
        rw [Finset.sum_apply, Finset.sum_eq_single i] at hc
        · have hwi : w i = rvec p t.row := by simp only [w, hpi]
          rw [Pi.smul_apply, hwi, (h.piv i t hpi).at_head] at hc
          have : a i = 0 := by simpa using hc
          rw [this, zero_smul]
        · intro j _ hj
          rcases lt_trichotomy (j : Nat) i with hlt | heq | hgt
          · have hz := ih j (by omega) j rfl
            have : a j • w j = 0 := by rw [← hgw, ← map_smul, hz, map_zero]
            rw [this]; rfl
          · exact absurd (Fin.ext heq) hj
          · rcases hpj : pivs j with _ | u
            · simp [w, hpj]
            · have hwj : w j = rvec p u.row := by simp only [w, hpj]
              rw [Pi.smul_apply, hwj, (h.piv j u hpj).below hgt, smul_zero]
        · intro hh; exact absurd (Finset.mem_univ i) hh
  rw [← ha]
  exact Finset.sum_eq_zero fun i _ => key i i rfl

/-- Everything in the kernel is found. -/
theorem KOk.complete {p ncols ld : Nat} {v : Nat → Nat → ZMod p} {S : List Nat} {pivs : Nat → Option TPiv} {K : List Row}
    (h : KOk p ncols ld v S pivs K) {c : Nat → ZMod p} (hc : c ∈ unitSpan p S) (h0 : combL p ld v c = 0) :
    c ∈ kerSpan p K := by
  rw [← h.span] at hc
  obtain ⟨a, ha, b, hb, rfl⟩ := Submodule.mem_sup.mp hc
  have hb0 : combL p ld v b = 0 := by
    have hle : kerSpan p K ≤ LinearMap.ker (combL p ld v) := by
      apply Submodule.span_le.mpr
      rintro m ⟨r, hr, rfl⟩
      exact (h.ker r hr).2.2
    exact hle hb
  rw [map_add, hb0, add_zero] at h0
  rw [mulSpan_inj h.piv ha h0, zero_add]
  exact hb

end Verif.SatKernel
