import Mathlib.Tactic.Ring
import Mathlib.Tactic.Linarith
import Mathlib.Tactic.NormNum
import Mathlib.Data.ZMod.Basic
import Mathlib.LinearAlgebra.Span.Basic
import Mathlib.Algebra.Module.Pi
import Mathlib.Tactic.Abel
import Mathlib.Algebra.BigOperators.Group.List.Basic

/-! Model of the reduction of one dense matrix row by known pivot rows, `src/neogb/la_ff_32.c`,
`la_ff_16.c`, `la_ff_8.c`. -/

namespace Verif.RowReduce

/-- `int64_t` arithmetic: signed overflow is undefined behaviour, represented by `none`. -/
def i64 (x : Int) : Option Int := if -2 ^ 63 ≤ x ∧ x < 2 ^ 63 then some x else none

/-- A sparse row: columns `ds[j]` with coefficients `cfs[j]`. -/
abbrev Row := List (Nat × Nat)

/-- One update of the 31 bit variant, la_ff_32.c 1209-1221:
`dr[ds[j]] -= mul * cfs[j]; dr[ds[j]] += (dr[ds[j]] >> 63) & mod2;`. -/
def sub31 (p : Nat) (mul : Int) (dr : Nat → Int) (t : Nat × Nat) : Option (Nat → Int) :=
  (i64 (mul * t.2)).bind fun q =>
  (i64 (dr t.1 - q)).bind fun x =>
  (if x < 0 then i64 (x + (p : Int) * p) else some x).map fun x => Function.update dr t.1 x

/-- Elimination with the multiplier `x = dr[i]`, la_ff_32.c 1025-1222.  The updates of one row concern
different columns, so the unrolled and the vectorised loops (which change their order) compute the same
array. -/
def elim31 (p : Nat) (x : Int) (r : Row) (dr : Nat → Int) : Option (Nat → Int) :=
  r.foldlM (sub31 p x) dr

/-- One update of the lazy variants, la_ff_32.c 530-541, la_ff_16.c 376-387, la_ff_8.c 522-533:
`dr[ds[j]] += mul * cfs[j];`. -/
def add17 (mul : Int) (dr : Nat → Int) (t : Nat × Nat) : Option (Nat → Int) :=
  (i64 (mul * t.2)).bind fun q =>
  (i64 (dr t.1 + q)).map fun x => Function.update dr t.1 x

/-- Elimination with the multiplier `mod - dr[i]`, la_ff_32.c 362-542, la_ff_16.c 167-388,
la_ff_8.c (the same code for `cf8_t`). -/
def elim17 (p : Nat) (x : Int) (r : Row) (dr : Nat → Int) : Option (Nat → Int) :=
  r.foldlM (add17 (p - x)) dr

/-- State of the column loop: dense row, first column without pivot, number of such columns. -/
structure St where
  dr : Nat → Int
  np : Option Nat
  k : Nat

/-- Body of the column loop, la_ff_32.c 346-545 and 1010-1226, with the elimination as a parameter.
`%` of C truncates. -/
def colStep (elim : Int → Row → (Nat → Int) → Option (Nat → Int)) (p : Nat) (pivs : Nat → Option Row)
    (s : St) (i : Nat) : Option St :=
  let x := if s.dr i ≠ 0 then Int.tmod (s.dr i) p else s.dr i
  let dr := Function.update s.dr i x
  if x = 0 then some { s with dr := dr }
  else match pivs i with
    | none => some { dr := dr, np := if s.np = none then some i else s.np, k := s.k + 1 }
    | some r => (elim x r dr).map fun dr => { s with dr := Function.update dr i 0 }

/-- The column loop `for (i = dpiv; i < ncols; ++i)`. -/
def colLoop (elim : Int → Row → (Nat → Int) → Option (Nat → Int)) (p : Nat) (pivs : Nat → Option Row) :
    Nat → Nat → St → Option St
  | 0, _, s => some s
  | cnt + 1, i, s => (colStep elim p pivs s i).bind (colLoop elim p pivs cnt (i + 1))

/-- Writing the sparse row, la_ff_32.c 553-564 and 1232-1241: columns from `ncl` on. -/
def extract (ncl ncols : Nat) (dr : Nat → Int) : Row :=
  ((List.range' ncl (ncols - ncl)).filter (fun c => dr c ≠ 0)).map (fun c => (c, (dr c % 2 ^ 32).toNat))

/-- `reduce_dense_row_by_known_pivots_sparse_{17,31}_bit`, la_ff_32.c 305-577, 964-1241 (and
`_ff_16`, `_ff_8`).  `none`: undefined behaviour; `some (dr, none)`: `NULL`; `some (dr, some row)`: new
row; `dr` is the content of the dense array afterwards.  The returned row has room for `k` entries: a
longer one is an out of bounds write, `none`. -/
def reduceRow (elim : Int → Row → (Nat → Int) → Option (Nat → Int)) (p : Nat) (pivs : Nat → Option Row)
    (ncl ncols dpiv : Nat) (dr : Nat → Int) : Option ((Nat → Int) × Option Row) :=
  (colLoop elim p pivs (ncols - dpiv) dpiv { dr := dr, np := none, k := 0 }).bind fun s =>
    if s.k = 0 then some (s.dr, none)
    else if (extract ncl ncols s.dr).length ≤ s.k then some (s.dr, some (extract ncl ncols s.dr))
    else none

/-! ### Vectors over the field -/

/-- The dense array as a vector over `Z/p`. -/
def vec (p : Nat) (dr : Nat → Int) : Nat → ZMod p := fun c => ((dr c : Int) : ZMod p)

/-- A sparse row as a vector over `Z/p`. -/
def rvec (p : Nat) (r : Row) : Nat → ZMod p := (r.map (fun t => Pi.single t.1 ((t.2 : Nat) : ZMod p))).sum

/-- A pivot row for column `i`: first entry in column `i` with coefficient 1, all other entries in
different columns to the right of `i` and below `ncols`, coefficients reduced.  The columns need not be
increasing: the known pivots are not sorted again after the renumbering of the columns (convert.c
395-406). -/
structure PivRow (p ncols i : Nat) (r : Row) : Prop where
  head : ∃ r', r = (i, 1) :: r'
  col_ge : ∀ t ∈ r, i ≤ t.1
  nodup : (r.map Prod.fst).Nodup
  bound : ∀ t ∈ r, t.1 < ncols ∧ t.2 < p

theorem PivRow.of_sorted {p ncols i : Nat} {r : Row} (head : ∃ r', r = (i, 1) :: r')
    (sorted : (r.map Prod.fst).Pairwise (· < ·)) (bound : ∀ t ∈ r, t.1 < ncols ∧ t.2 < p) :
    PivRow p ncols i r := by
  refine ⟨head, ?_, sorted.imp (fun h => h.ne), bound⟩
  obtain ⟨r', hr⟩ := head
  have hs := sorted
  rw [hr] at hs ⊢
  rw [List.map_cons, List.pairwise_cons] at hs
  intro t ht
  rcases List.mem_cons.mp ht with rfl | ht
  · exact le_refl _
  · exact (hs.1 t.1 (List.mem_map_of_mem ht)).le

theorem i64_some {x : Int} (h1 : -2 ^ 63 ≤ x) (h2 : x < 2 ^ 63) : i64 x = some x := by
  unfold i64; rw [if_pos ⟨h1, h2⟩]

/-- What an elimination has to satisfy: `Ok` is the invariant on the dense array before column `i`
(with `t` eliminations done so far). -/
structure ElimSpec (p ncols : Nat) (elim : Int → Row → (Nat → Int) → Option (Nat → Int))
    (Ok : Nat → (Nat → Int) → Prop) : Prop where
  init : ∀ dr : Nat → Int, (∀ c, 0 ≤ dr c ∧ dr c < (p : Int)) → Ok 0 dr
  nonneg : ∀ t dr c, Ok t dr → 0 ≤ dr c
  mono : ∀ t dr, Ok t dr → Ok (t + 1) dr
  upd : ∀ t dr i x, Ok t dr → 0 ≤ x → x ≤ dr i → Ok t (Function.update dr i x)
  step : ∀ t dr i r (x : Int), Ok t dr → t < ncols → PivRow p ncols i r → 0 < x → x < p →
    ∃ dr', elim x r dr = some dr' ∧ Ok (t + 1) dr' ∧
      vec p dr' = vec p dr - (x : ZMod p) • rvec p r ∧
      (∀ c, c < i → dr' c = dr c) ∧ (∀ c, ncols ≤ c → dr' c = dr c)

theorem rvec_nil (p : Nat) : rvec p [] = 0 := rfl

theorem rvec_cons (p : Nat) (t : Nat × Nat) (r : Row) :
    rvec p (t :: r) = Pi.single t.1 ((t.2 : Nat) : ZMod p) + rvec p r := by
  unfold rvec; rw [List.map_cons, List.sum_cons]

theorem vec_update (p : Nat) (dr : Nat → Int) (i : Nat) (x : Int) :
    vec p (Function.update dr i x) = vec p dr + Pi.single i (((x - dr i : Int)) : ZMod p) := by
  funext c
  unfold vec
  rw [Pi.add_apply]
  by_cases h : c = i
  · subst h; simp
  · rw [Function.update_of_ne h, Pi.single_eq_of_ne h, add_zero]

/-! ### The 31 bit variant -/

theorem foldlM_sub31 (p : Nat) (hp : (p : Int) * p < 2 ^ 62) (x : Int) (hx : 0 ≤ x) (hxp : x < p) :
    ∀ (r : Row) (dr : Nat → Int), (∀ t ∈ r, t.2 < p) → (∀ c, 0 ≤ dr c ∧ dr c < (p : Int) * p) →
      ∃ dr', r.foldlM (sub31 p x) dr = some dr' ∧ (∀ c, 0 ≤ dr' c ∧ dr' c < (p : Int) * p) ∧
        vec p dr' = vec p dr - (x : ZMod p) • rvec p r ∧
        (∀ c, (∀ t ∈ r, t.1 ≠ c) → dr' c = dr c)
  | [], dr, _, h => ⟨dr, rfl, h, by rw [rvec_nil, smul_zero, sub_zero], fun _ _ => rfl⟩
  | t :: r, dr, hr, h => by
    have ht : t.2 < p := hr t List.mem_cons_self
    have hq0 : 0 ≤ x * t.2 := by positivity
    have hq1 : x * t.2 < (p : Int) * p := by
      have h1 : (t.2 : Int) < p := by exact_mod_cast ht
      have h2 : (0 : Int) ≤ t.2 := by positivity
      nlinarith
    obtain ⟨d0, d1⟩ := h t.1
    have hstep : ∃ y : Int, sub31 p x dr t = some (Function.update dr t.1 y) ∧ 0 ≤ y ∧ y < (p : Int) * p ∧
        ((y - dr t.1 : Int) : ZMod p) = - ((x : ZMod p) * ((t.2 : Nat) : ZMod p)) := by
      unfold sub31
      have hcast : (((x * t.2 : Int)) : ZMod p) = (x : ZMod p) * ((t.2 : Nat) : ZMod p) := by push_cast; rfl
      rw [← hcast]
      generalize hqq : x * (t.2 : Int) = q at *
      generalize hmm : (p : Int) * p = m at *
      rw [i64_some (by linarith) (by linarith), Option.bind_some, i64_some (by linarith) (by linarith),
        Option.bind_some]
      by_cases hneg : dr t.1 - q < 0
      · rw [if_pos hneg, i64_some (by linarith) (by linarith)]
        refine ⟨dr t.1 - q + m, rfl, by linarith, by linarith, ?_⟩
        rw [show dr t.1 - q + m - dr t.1 = m - q by ring, ← hmm]
        push_cast
        rw [ZMod.natCast_self]; ring
      · rw [if_neg hneg]
        refine ⟨dr t.1 - q, rfl, by linarith, by linarith, ?_⟩
        rw [show dr t.1 - q - dr t.1 = - q by ring, Int.cast_neg]
    obtain ⟨y, hy, y0, y1, y2⟩ := hstep
    obtain ⟨dr', h1, h2, h3, h4⟩ := foldlM_sub31 p hp x hx hxp r (Function.update dr t.1 y)
      (fun t' ht' => hr t' (List.mem_cons_of_mem _ ht'))
      (fun c => by
        by_cases hc : c = t.1
        · subst hc; rw [Function.update_self]; exact ⟨y0, y1⟩
        · rw [Function.update_of_ne hc]; exact h c)
    refine ⟨dr', ?_, h2, ?_, ?_⟩
    · rw [List.foldlM_cons, hy]; exact h1
    · rw [h3, vec_update, y2, rvec_cons, smul_add]
      have : (x : ZMod p) • (Pi.single t.1 ((t.2 : Nat) : ZMod p) : Nat → ZMod p) =
          Pi.single t.1 ((x : ZMod p) * ((t.2 : Nat) : ZMod p)) := by
        rw [← Pi.single_smul]; rfl
      rw [this, Pi.single_neg]
      abel
    · intro c hc
      rw [h4 c (fun t' ht' => hc t' (List.mem_cons_of_mem _ ht')),
        Function.update_of_ne (Ne.symm (hc t List.mem_cons_self))]

/-- Invariant of the 31 bit variant. -/
def Ok31 (p : Nat) (_t : Nat) (dr : Nat → Int) : Prop := ∀ c, 0 ≤ dr c ∧ dr c < (p : Int) * p

theorem elim31_spec (p ncols : Nat) (hp : (p : Int) * p < 2 ^ 62) :
    ElimSpec p ncols (elim31 p) (Ok31 p) where
  init := fun dr h c => ⟨(h c).1, by
    have h1 := (h c).1
    have h2 := (h c).2
    have h3 : (1 : Int) ≤ p := by linarith
    nlinarith⟩
  nonneg := fun _ _ c h => (h c).1
  mono := fun _ _ h => h
  upd := by
    intro _ dr i x h h0 h1 c
    by_cases hc : c = i
    · subst hc; rw [Function.update_self]; exact ⟨h0, lt_of_le_of_lt h1 (h c).2⟩
    · rw [Function.update_of_ne hc]; exact h c
  step := by
    intro _ dr i r x h _ hr hx hxp
    obtain ⟨dr', h1, h2, h3, h4⟩ := foldlM_sub31 p hp x hx.le hxp r dr (fun t ht => (hr.bound t ht).2) h
    refine ⟨dr', h1, h2, h3, fun c hc => h4 c (fun t ht => ?_), fun c hc => h4 c (fun t ht => ?_)⟩
    · have := hr.col_ge t ht; omega
    · have := (hr.bound t ht).1; omega

/-! ### The lazy variants -/

theorem foldlM_add17 (p : Nat) (m : Int) (hm : 0 ≤ m) (B C : Int) (hBC : B + C < 2 ^ 63) (hC : C < 2 ^ 63)
    (hmC : ∀ a : Nat, a < p → m * a ≤ C) :
    ∀ (r : Row) (dr : Nat → Int), (r.map Prod.fst).Nodup → (∀ t ∈ r, t.2 < p) →
      (∀ c, 0 ≤ dr c) → (∀ c, dr c ≤ B + C) → (∀ t ∈ r, dr t.1 ≤ B) →
      ∃ dr', r.foldlM (add17 m) dr = some dr' ∧ (∀ c, 0 ≤ dr' c ∧ dr' c ≤ B + C) ∧
        vec p dr' = vec p dr + (m : ZMod p) • rvec p r ∧
        (∀ c, (∀ t ∈ r, t.1 ≠ c) → dr' c = dr c)
  | [], dr, _, _, h0, h1, _ => ⟨dr, rfl, fun c => ⟨h0 c, h1 c⟩, by rw [rvec_nil, smul_zero, add_zero], fun _ _ => rfl⟩
  | t :: r, dr, hnd, hr, h0, h1, hB => by
    rw [List.map_cons, List.nodup_cons] at hnd
    have ht : t.2 < p := hr t List.mem_cons_self
    have hq0 : 0 ≤ m * t.2 := by positivity
    have hq1 : m * t.2 ≤ C := hmC _ ht
    have d0 := h0 t.1
    have d1 := hB t List.mem_cons_self
    have hstep : add17 m dr t = some (Function.update dr t.1 (dr t.1 + m * t.2)) := by
      unfold add17
      generalize m * (t.2 : Int) = q at *
      rw [i64_some (by linarith) (by linarith), Option.bind_some, i64_some (by linarith) (by linarith)]
      rfl
    obtain ⟨dr', g1, g2, g3, g4⟩ := foldlM_add17 p m hm B C hBC hC hmC r
      (Function.update dr t.1 (dr t.1 + m * t.2)) hnd.2
      (fun t' ht' => hr t' (List.mem_cons_of_mem _ ht'))
      (fun c => by
        by_cases hc : c = t.1
        · subst hc; rw [Function.update_self]; linarith
        · rw [Function.update_of_ne hc]; exact h0 c)
      (fun c => by
        by_cases hc : c = t.1
        · subst hc; rw [Function.update_self]; linarith
        · rw [Function.update_of_ne hc]; exact h1 c)
      (fun t' ht' => by
        have : t'.1 ≠ t.1 := fun he => hnd.1 (by rw [← he]; exact List.mem_map_of_mem ht')
        rw [Function.update_of_ne this]
        exact hB t' (List.mem_cons_of_mem _ ht'))
    refine ⟨dr', ?_, g2, ?_, ?_⟩
    · rw [List.foldlM_cons, hstep]; exact g1
    · rw [g3, vec_update, rvec_cons, smul_add]
      have e1 : (m : ZMod p) • (Pi.single t.1 ((t.2 : Nat) : ZMod p) : Nat → ZMod p) =
          Pi.single t.1 ((m : ZMod p) * ((t.2 : Nat) : ZMod p)) := by
        rw [← Pi.single_smul]; rfl
      have e2 : (((dr t.1 + m * t.2 - dr t.1 : Int)) : ZMod p) = (m : ZMod p) * ((t.2 : Nat) : ZMod p) := by
        push_cast; ring
      rw [e1, e2, add_assoc]
    · intro c hc
      rw [g4 c (fun t' ht' => hc t' (List.mem_cons_of_mem _ ht')),
        Function.update_of_ne (Ne.symm (hc t List.mem_cons_self))]

/-- Invariant of the lazy variants: after `t` eliminations an entry is at most
`B + t * (p-1)^2`, with `B` a bound on the initial entries. -/
def Ok17 (p : Nat) (B : Int) (t : Nat) (dr : Nat → Int) : Prop :=
  ∀ c, 0 ≤ dr c ∧ dr c ≤ B + t * (((p : Int) - 1) * (p - 1))

theorem elim17_spec (p ncols : Nat) (B : Int) (hp : 0 < p) (hB0 : 0 ≤ B) (hBp : (p : Int) - 1 ≤ B)
    (hB : B + ncols * (((p : Int) - 1) * (p - 1)) < 2 ^ 63) :
    ElimSpec p ncols (elim17 p) (Ok17 p B) where
  init := fun dr h c => ⟨(h c).1, by
    have h2 := (h c).2
    have h3 : (0 : Int) ≤ ((0 : Nat) : Int) * (((p : Int) - 1) * (p - 1)) := by simp
    linarith⟩
  nonneg := fun _ _ c h => (h c).1
  mono := by
    intro t dr h c
    obtain ⟨h0, h1⟩ := h c
    refine ⟨h0, h1.trans ?_⟩
    have : (0 : Int) ≤ ((p : Int) - 1) * (p - 1) := mul_self_nonneg _
    push_cast
    nlinarith
  upd := by
    intro _ dr i x h h0 h1 c
    by_cases hc : c = i
    · subst hc; rw [Function.update_self]; exact ⟨h0, h1.trans (h c).2⟩
    · rw [Function.update_of_ne hc]; exact h c
  step := by
    intro t dr i r x h ht hr hx hxp
    have hsq : (0 : Int) ≤ ((p : Int) - 1) * (p - 1) := mul_self_nonneg _
    have hbound : B + (t : Int) * (((p : Int) - 1) * (p - 1)) + ((p : Int) - 1) * (p - 1) < 2 ^ 63 := by
      have : ((t : Int) + 1) * (((p : Int) - 1) * (p - 1)) ≤ ncols * (((p : Int) - 1) * (p - 1)) := by
        apply mul_le_mul_of_nonneg_right _ hsq
        exact_mod_cast ht
      linarith
    have ht0 : (0 : Int) ≤ (t : Int) * (((p : Int) - 1) * (p - 1)) := by positivity
    obtain ⟨dr', h1, h2, h3, h4⟩ := foldlM_add17 p (p - x) (by linarith)
      (B + (t : Int) * (((p : Int) - 1) * (p - 1))) (((p : Int) - 1) * (p - 1)) hbound (by linarith)
      (fun a ha => by
        have a1 : (a : Int) ≤ p - 1 := by omega
        have a0 : (0 : Int) ≤ a := by omega
        have a2 : (p : Int) - x ≤ p - 1 := by omega
        have a3 : (0 : Int) ≤ p - 1 := by omega
        exact mul_le_mul a2 a1 a0 a3) r dr
      hr.nodup (fun t ht => (hr.bound t ht).2) (fun c => (h c).1)
      (fun c => by have := (h c).2; linarith) (fun t _ => (h t.1).2)
    refine ⟨dr', h1, fun c => ⟨(h2 c).1, ?_⟩, ?_, fun c hc => h4 c (fun t ht => ?_),
      fun c hc => h4 c (fun t ht => ?_)⟩
    · have := (h2 c).2
      push_cast
      linarith
    · rw [h3]
      have : (((p : Int) - x : Int) : ZMod p) = - (x : ZMod p) := by
        push_cast; rw [ZMod.natCast_self]; ring
      rw [this, neg_smul, sub_eq_add_neg]
    · have := hr.col_ge t ht; omega
    · have := (hr.bound t ht).1; omega

/-! ### The column loop -/

/-- Span of the pivot rows for the columns in `[a, b)`. -/
def pivSpan (p : Nat) (pivs : Nat → Option Row) (a b : Nat) : Submodule (ZMod p) (Nat → ZMod p) :=
  Submodule.span (ZMod p) { v | ∃ j r, a ≤ j ∧ j < b ∧ pivs j = some r ∧ v = rvec p r }

theorem pivSpan_mono (p : Nat) (pivs : Nat → Option Row) {a b a' b' : Nat} (ha : a' ≤ a) (hb : b ≤ b') :
    pivSpan p pivs a b ≤ pivSpan p pivs a' b' := by
  apply Submodule.span_mono
  rintro v ⟨j, r, h1, h2, h3, h4⟩
  exact ⟨j, r, by omega, by omega, h3, h4⟩

/-- Columns of `[i, i+cnt)` with a nonzero entry. -/
def nz (dr : Nat → Int) (i cnt : Nat) : List Nat := (List.range' i cnt).filter (fun c => dr c ≠ 0)

theorem nz_succ (dr : Nat → Int) (i cnt : Nat) :
    nz dr i (cnt + 1) = (if dr i ≠ 0 then [i] else []) ++ nz dr (i + 1) cnt := by
  unfold nz
  rw [List.range'_succ, List.filter_cons]
  by_cases h : dr i = 0 <;> simp [h]

theorem nz_congr {dr dr' : Nat → Int} {i cnt : Nat} (h : ∀ c, i ≤ c → c < i + cnt → dr c = dr' c) :
    nz dr i cnt = nz dr' i cnt := by
  unfold nz
  apply List.filter_congr
  intro c hc
  rw [List.mem_range'_1] at hc
  rw [h c hc.1 hc.2]

structure StepOk (p ncols : Nat) (pivs : Nat → Option Row) (Ok : Nat → (Nat → Int) → Prop)
    (t i : Nat) (s s' : St) : Prop where
  ok : Ok (t + 1) s'.dr
  span : vec p s'.dr - vec p s.dr ∈ pivSpan p pivs i (i + 1)
  below : ∀ c, c < i → s'.dr c = s.dr c
  above : ∀ c, ncols ≤ c → s'.dr c = s.dr c
  at0 : 0 ≤ s'.dr i ∧ s'.dr i < p ∧ (pivs i ≠ none → s'.dr i = 0)
  k : s'.k = s.k + (if s'.dr i ≠ 0 then 1 else 0)
  np : s'.np = if s.np = none then (if s'.dr i ≠ 0 then some i else none) else s.np

theorem colStep_spec {p ncols : Nat} {elim : Int → Row → (Nat → Int) → Option (Nat → Int)}
    {Ok : Nat → (Nat → Int) → Prop} (hE : ElimSpec p ncols elim Ok) (hp : 0 < p)
    {pivs : Nat → Option Row} {s : St} {t i : Nat} (hpiv : ∀ r, pivs i = some r → PivRow p ncols i r)
    (hok : Ok t s.dr) (ht : t < ncols) (hi : i < ncols) :
    ∃ s', colStep elim p pivs s i = some s' ∧ StepOk p ncols pivs Ok t i s s' := by
  have h0 := hE.nonneg t s.dr i hok
  have hpp : (0 : Int) < p := by exact_mod_cast hp
  have hx : (if s.dr i ≠ 0 then Int.tmod (s.dr i) p else s.dr i) = s.dr i % p := by
    split_ifs with h
    · exact Int.tmod_eq_emod_of_nonneg h0
    · rw [not_not.mp h, Int.zero_emod]
  unfold colStep
  simp only [hx]
  have hx0 : 0 ≤ s.dr i % p := Int.emod_nonneg _ hpp.ne'
  have hx1 : s.dr i % p < p := Int.emod_lt_of_pos _ hpp
  have hx2 : s.dr i % p ≤ s.dr i := by
    have := Int.emod_add_mul_ediv (s.dr i) p
    have h3 : 0 ≤ s.dr i / p := Int.ediv_nonneg h0 hpp.le
    nlinarith
  have hok' := hE.upd t s.dr i _ hok hx0 hx2
  have hvec : vec p (Function.update s.dr i (s.dr i % p)) = vec p s.dr := by
    rw [vec_update]
    have : (((s.dr i % p - s.dr i : Int)) : ZMod p) = 0 := by
      rw [Int.cast_sub, ZMod.intCast_mod, sub_self]
    rw [this, Pi.single_zero, add_zero]
  have hbel : ∀ c, c ≠ i → Function.update s.dr i (s.dr i % p) c = s.dr c :=
    fun c hc => Function.update_of_ne hc _ _
  by_cases hz : s.dr i % p = 0
  · rw [if_pos hz]
    refine ⟨_, rfl, ?_⟩
    refine ⟨hE.mono _ _ hok', ?_, fun c hc => hbel c (by omega), fun c hc => hbel c (by omega), ?_, ?_, ?_⟩
    · simp only [hvec, sub_self]; exact Submodule.zero_mem _
    · simp only [Function.update_self]; exact ⟨hx0, hx1, fun _ => hz⟩
    · simp [hz]
    · simp [hz]
  · rw [if_neg hz]
    rcases hpi : pivs i with _ | r
    · refine ⟨_, rfl, hE.mono _ _ hok', ?_, fun c hc => hbel c (by omega), fun c hc => hbel c (by omega), ?_, ?_, ?_⟩
      · simp only [hvec, sub_self]; exact Submodule.zero_mem _
      · simp only [Function.update_self]; exact ⟨hx0, hx1, fun h => absurd hpi h⟩
      · simp [hz]
      · simp [hz]
    · have hr := hpiv r hpi
      obtain ⟨dr', h1, h2, h3, h4, h5⟩ := hE.step t _ i r (s.dr i % p) hok' ht hr
        (lt_of_le_of_ne hx0 (Ne.symm hz)) hx1
      simp only [h1, Option.map_some]
      have hri : rvec p r i = 1 := by
        obtain ⟨r', hr'⟩ := hr.head
        have hs := hr.nodup
        rw [hr', rvec_cons, Pi.add_apply, Pi.single_eq_same]
        rw [hr', List.map_cons, List.nodup_cons] at hs
        have : rvec p r' i = 0 := by
          have hall : ∀ t ∈ r', t.1 ≠ i := fun t ht he =>
            hs.1 (by simp only; rw [← he]; exact List.mem_map_of_mem ht)
          clear hs hr' h1 h3
          induction r' with
          | nil => rfl
          | cons t r' ih =>
            rw [rvec_cons, Pi.add_apply, ih (fun t ht => hall t (List.mem_cons_of_mem _ ht)),
              Pi.single_eq_of_ne (Ne.symm (hall t List.mem_cons_self)), add_zero]
        rw [this]; simp
      have hdi : ((dr' i : Int) : ZMod p) = 0 := by
        have := congrFun h3 i
        rw [hvec, Pi.sub_apply, Pi.smul_apply, hri, smul_eq_mul, mul_one] at this
        unfold vec at this
        rw [this, ZMod.intCast_mod, sub_self]
      have hvec2 : vec p (Function.update dr' i 0) = vec p dr' := by
        rw [vec_update, zero_sub, Int.cast_neg, hdi, neg_zero, Pi.single_zero, add_zero]
      refine ⟨_, rfl, hE.upd _ _ _ _ h2 (le_refl 0) (hE.nonneg _ _ _ h2), ?_, ?_, ?_, ?_, ?_, ?_⟩
      · simp only [hvec2, h3, hvec]
        have : vec p s.dr - ((s.dr i % (p : Int) : Int) : ZMod p) • rvec p r - vec p s.dr =
            - (((s.dr i % (p : Int) : Int) : ZMod p) • rvec p r) := by abel
        rw [this]
        exact Submodule.neg_mem _ (Submodule.smul_mem _ _
          (Submodule.subset_span ⟨i, r, le_refl _, by omega, hpi, rfl⟩))
      · intro c hc
        have hne : c ≠ i := by omega
        simp only [Function.update_of_ne hne, h4 c hc]
      · intro c hc
        have hne : c ≠ i := by omega
        simp only [Function.update_of_ne hne, h5 c hc]
      · simp only [Function.update_self]; exact ⟨le_refl _, hpp, fun _ => trivial⟩
      · simp
      · simp

structure LoopOk (p ncols : Nat) (pivs : Nat → Option Row) (Ok : Nat → (Nat → Int) → Prop)
    (t cnt i : Nat) (s s' : St) : Prop where
  ok : Ok (t + cnt) s'.dr
  span : vec p s'.dr - vec p s.dr ∈ pivSpan p pivs i (i + cnt)
  below : ∀ c, c < i → s'.dr c = s.dr c
  above : ∀ c, ncols ≤ c → s'.dr c = s.dr c
  inside : ∀ c, i ≤ c → c < i + cnt → 0 ≤ s'.dr c ∧ s'.dr c < p ∧ (pivs c ≠ none → s'.dr c = 0)
  k : s'.k = s.k + (nz s'.dr i cnt).length
  np : s'.np = if s.np = none then (nz s'.dr i cnt).head? else s.np

theorem colLoop_spec {p ncols : Nat} {elim : Int → Row → (Nat → Int) → Option (Nat → Int)}
    {Ok : Nat → (Nat → Int) → Prop} (hE : ElimSpec p ncols elim Ok) (hp : 0 < p)
    {pivs : Nat → Option Row} (hpiv : ∀ i r, pivs i = some r → PivRow p ncols i r) :
    ∀ (cnt i t : Nat) (s : St), Ok t s.dr → t + cnt ≤ ncols → i + cnt ≤ ncols →
      ∃ s', colLoop elim p pivs cnt i s = some s' ∧ LoopOk p ncols pivs Ok t cnt i s s'
  | 0, i, t, s, hok, _, _ => ⟨s, rfl, hok, by rw [sub_self]; exact Submodule.zero_mem _,
      fun _ _ => rfl, fun _ _ => rfl, fun c h1 h2 => by omega, by simp [nz], by simp [nz]⟩
  | cnt + 1, i, t, s, hok, ht, hi => by
    obtain ⟨s1, e1, a⟩ := colStep_spec hE hp (hpiv i) hok (by omega : t < ncols) (by omega : i < ncols)
    obtain ⟨s2, e2, b⟩ := colLoop_spec hE hp hpiv cnt (i + 1) (t + 1) s1 a.ok (by omega) (by omega)
    have hdi : s2.dr i = s1.dr i := b.below i (by omega)
    refine ⟨s2, by rw [colLoop, e1, Option.bind_some, e2], ?_, ?_, ?_, ?_, ?_, ?_, ?_⟩
    · have := b.ok
      rw [show t + 1 + cnt = t + (cnt + 1) by omega] at this
      exact this
    · have h1 := pivSpan_mono p pivs (le_refl i) (by omega : i + 1 ≤ i + (cnt + 1)) a.span
      have h2 := pivSpan_mono p pivs (by omega : i ≤ i + 1) (by omega : i + 1 + cnt ≤ i + (cnt + 1)) b.span
      have := Submodule.add_mem _ h2 h1
      rwa [sub_add_sub_cancel] at this
    · intro c hc; rw [b.below c (by omega), a.below c hc]
    · intro c hc; rw [b.above c hc, a.above c hc]
    · intro c h1 h2
      by_cases hc : c = i
      · subst hc; rw [hdi]; exact a.at0
      · exact b.inside c (by omega) (by omega)
    · rw [b.k, a.k, nz_succ, hdi, List.length_append]
      split_ifs <;> simp; omega
    · rw [b.np, a.np, nz_succ, hdi]
      by_cases hn : s.np = none
      · by_cases hd : s1.dr i = 0 <;> simp [hn, hd]
      · simp [hn]

/-- What the reduction of a dense row delivers. -/
structure ReduceOk (p ncols ncl : Nat) (pivs : Nat → Option Row) (dpiv : Nat) (dr dr' : Nat → Int)
    (res : Option Row) : Prop where
  /-- The new dense row differs from the old one by a combination of the pivot rows. -/
  span : vec p dr' - vec p dr ∈ pivSpan p pivs dpiv ncols
  range : ∀ c, 0 ≤ dr' c ∧ dr' c < p
  zeroPiv : ∀ c, pivs c ≠ none → dr' c = 0
  zeroBelow : ∀ c, c < dpiv → dr' c = 0
  zeroAbove : ∀ c, ncols ≤ c → dr' c = 0
  null : res = none → vec p dr' = 0
  row : ∀ r, res = some r → rvec p r = vec p dr' ∧ r ≠ [] ∧ (r.map Prod.fst).Pairwise (· < ·) ∧
    (∀ t ∈ r, ncl ≤ t.1 ∧ dpiv ≤ t.1 ∧ t.1 < ncols ∧ 0 < t.2 ∧ t.2 < p ∧ pivs t.1 = none)

theorem rvec_map (p : Nat) (f : Nat → Nat) : ∀ (l : List Nat) (_ : l.Nodup) (c : Nat),
    rvec p (l.map (fun c => (c, f c))) c = if c ∈ l then ((f c : Nat) : ZMod p) else 0
  | [], _, c => by simp [rvec]
  | a :: l, hnd, c => by
    rw [List.nodup_cons] at hnd
    rw [List.map_cons, rvec_cons, Pi.add_apply, rvec_map p f l hnd.2 c]
    by_cases h : c = a
    · subst h; simp [hnd.1]
    · rw [Pi.single_eq_of_ne h]; simp [h]

theorem reduceRow_spec {p ncols : Nat} {elim : Int → Row → (Nat → Int) → Option (Nat → Int)}
    {Ok : Nat → (Nat → Int) → Prop} (hE : ElimSpec p ncols elim Ok) (hp : 0 < p) (hp32 : p ≤ 2 ^ 32)
    {pivs : Nat → Option Row} (hpiv : ∀ i r, pivs i = some r → PivRow p ncols i r)
    {ncl dpiv : Nat} {dr : Nat → Int} (hok : Ok 0 dr) (hd : dpiv ≤ ncols) (hncl : ncl ≤ ncols)
    (hz0 : ∀ c, c < dpiv → dr c = 0) (hz1 : ∀ c, ncols ≤ c → dr c = 0)
    (hcl : ∀ c, c < ncl → c < dpiv ∨ pivs c ≠ none) :
    ∃ dr' res, reduceRow elim p pivs ncl ncols dpiv dr = some (dr', res) ∧
      ReduceOk p ncols ncl pivs dpiv dr dr' res := by
  obtain ⟨s, e, a⟩ := colLoop_spec hE hp hpiv (ncols - dpiv) dpiv 0 { dr := dr, np := none, k := 0 } hok
    (by omega) (by omega)
  have hpp : (0 : Int) < p := by exact_mod_cast hp
  have hfull : dpiv + (ncols - dpiv) = ncols := by omega
  have hrange : ∀ c, 0 ≤ s.dr c ∧ s.dr c < p := by
    intro c
    by_cases h1 : c < dpiv
    · rw [a.below c h1]; simp only; rw [hz0 c h1]; exact ⟨le_refl _, hpp⟩
    · by_cases h2 : ncols ≤ c
      · rw [a.above c h2]; simp only; rw [hz1 c h2]; exact ⟨le_refl _, hpp⟩
      · have := a.inside c (by omega) (by omega); exact ⟨this.1, this.2.1⟩
  have hpivz : ∀ c, pivs c ≠ none → s.dr c = 0 := by
    intro c hc
    by_cases h1 : c < dpiv
    · rw [a.below c h1]; exact hz0 c h1
    · by_cases h2 : ncols ≤ c
      · rw [a.above c h2]; exact hz1 c h2
      · exact (a.inside c (by omega) (by omega)).2.2 hc
  have hzb : ∀ c, c < dpiv → s.dr c = 0 := fun c h1 => by rw [a.below c h1]; exact hz0 c h1
  have hza : ∀ c, ncols ≤ c → s.dr c = 0 := fun c h1 => by rw [a.above c h1]; exact hz1 c h1
  have hzl : ∀ c, c < ncl → s.dr c = 0 := fun c hc => by
    rcases hcl c hc with h | h
    · exact hzb c h
    · exact hpivz c h
  have hspan : vec p s.dr - vec p dr ∈ pivSpan p pivs dpiv ncols := by
    have := a.span
    rw [hfull] at this
    exact this
  have hk : s.k = (nz s.dr dpiv (ncols - dpiv)).length := by rw [a.k]; simp
  unfold reduceRow
  rw [e, Option.bind_some]
  by_cases hk0 : s.k = 0
  · rw [if_pos hk0]
    refine ⟨_, _, rfl, hspan, hrange, hpivz, hzb, hza, fun _ => ?_, fun r hr => by simp at hr⟩
    rw [hk, List.length_eq_zero_iff] at hk0
    funext c
    have hc0 : s.dr c = 0 := by
      by_contra hne
      have hc : c ∈ nz s.dr dpiv (ncols - dpiv) := by
        unfold nz
        rw [List.mem_filter, List.mem_range'_1]
        refine ⟨⟨?_, ?_⟩, by simpa using hne⟩
        · by_contra h; exact hne (hzb c (by omega))
        · by_contra h; exact hne (hza c (by omega))
      rw [hk0] at hc
      exact List.not_mem_nil hc
    unfold vec; rw [hc0]; simp
  · rw [if_neg hk0]
    have hlen : (extract ncl ncols s.dr).length ≤ s.k := by
      unfold extract
      rw [List.length_map, hk]
      unfold nz
      apply List.Subperm.length_le
      apply List.subperm_of_subset
      · exact (List.nodup_range' (step := 1)).filter _
      · intro c hc
        rw [List.mem_filter, List.mem_range'_1] at hc ⊢
        refine ⟨⟨?_, ?_⟩, hc.2⟩
        · by_contra h
          have := hzb c (by omega)
          simp [this] at hc
        · by_contra h
          have := hza c (by omega)
          simp [this] at hc
    rw [if_pos hlen]
    refine ⟨_, _, rfl, hspan, hrange, hpivz, hzb, hza, fun h => by simp at h, ?_⟩
    intro r hr
    obtain rfl := Option.some.inj hr
    have hmem : ∀ c, c ∈ (List.range' ncl (ncols - ncl)).filter (fun c => s.dr c ≠ 0) ↔ s.dr c ≠ 0 := by
      intro c
      rw [List.mem_filter, List.mem_range'_1]
      constructor
      · intro h; simpa using h.2
      · intro h
        refine ⟨⟨?_, ?_⟩, by simpa using h⟩
        · by_contra hc; exact h (hzl c (by omega))
        · by_contra hc; exact h (hza c (by omega))
    refine ⟨?_, ?_, ?_, ?_⟩
    · funext c
      unfold extract
      refine (rvec_map p (fun c : Nat => Int.toNat (s.dr c % (2 : Int) ^ 32)) _ ((List.nodup_range' (step := 1)).filter _) c).trans ?_
      unfold vec
      by_cases hc : s.dr c = 0
      · rw [if_neg (by rw [hmem]; simp [hc]), hc]; simp
      · rw [if_pos (by rw [hmem]; exact hc)]
        obtain ⟨h0, h1⟩ := hrange c
        have hsm : s.dr c % 2 ^ 32 = s.dr c := Int.emod_eq_of_lt h0 (by
          have : (p : Int) ≤ 2 ^ 32 := by exact_mod_cast hp32
          linarith)
        simp only [hsm]
        rw [← Int.cast_natCast, Int.toNat_of_nonneg h0]
    · intro hnil
      apply hk0
      rw [hk, List.length_eq_zero_iff]
      unfold extract at hnil
      rw [List.map_eq_nil_iff] at hnil
      unfold nz
      rw [List.filter_eq_nil_iff]
      intro c _ hc
      have := (hmem c).mpr (by simpa using hc)
      rw [hnil] at this
      exact List.not_mem_nil this
    · unfold extract
      rw [List.map_map]
      have : (Prod.fst ∘ fun c => (c, (s.dr c % 2 ^ 32).toNat)) = id := rfl
      rw [this, List.map_id]
      exact (List.pairwise_lt_range' (step := 1)).filter _
    · intro t ht
      unfold extract at ht
      rw [List.mem_map] at ht
      obtain ⟨c, hc, rfl⟩ := ht
      have hne := (hmem c).mp hc
      rw [List.mem_filter, List.mem_range'_1] at hc
      obtain ⟨h0, h1⟩ := hrange c
      have hsm : s.dr c % 2 ^ 32 = s.dr c := Int.emod_eq_of_lt h0 (by
          have : (p : Int) ≤ 2 ^ 32 := by exact_mod_cast hp32
          linarith)
      simp only [hsm]
      refine ⟨hc.1.1, ?_, by omega, by omega, by omega, ?_⟩
      · by_contra h; exact hne (hzb c (by omega))
      · by_contra h; exact hne (hpivz c h)

end Verif.RowReduce
