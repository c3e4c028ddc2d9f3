import Verif.NormalForm
import Verif.Fglm
import Verif.MatVec
import Verif.Spec.LinForm
import Mathlib.Data.List.Sort
import Mathlib.Data.List.GetD

/-! Model of the construction of the matrix of the multiplication by the last variable in the quotient,
`build_matrixn_unstable_from_bs_trace`, src/msolve/hilbert.c 3471-3883.

`G` is the list of the elements `bs->hm[bs->lmps[i]]`, `i < bs->lml`, `lmb` the monomial basis (C24).  A row of
`nv` exponents is a vector; exponents and dimensions are assumed to fit the C integer types, and the exponent
vectors in the hash table are those of the degree reverse lexicographic order (`ebl == 0`).  Allocation, statistics
and printing are left out. -/

namespace Verif.MulMatrix

open Verif.Spec Verif.F4 Verif.Pairs Verif.Orders

variable {n : ℕ}

/-- Outcomes other than a matrix: access outside an array, or the `NULL` pointer. -/
inductive Err where
  | undef
  | null
deriving DecidableEq

/-- `is_equal_exponent_xxn`, hilbert.c 644-651 (`x` is the index `nvars - 1`). -/
def eqXxn (x : Fin n) (e1 e2 : Mon n) : Bool :=
  ((List.finRange n).all fun i => decide (i = x) || decide (e1 i = e2 i)) && decide (e1 x + 1 = e2 x)

/-- `is_divisible_exponent_xxn`, hilbert.c 653-661. -/
def divXxn (x : Fin n) (e1 e2 : Mon n) : Bool :=
  ((List.finRange n).all fun i => decide (i = x) || !decide (e1 i < e2 i)) && decide (e2 x ≤ e1 x + 1)

/-- `get_div_xn`, hilbert.c 489-499; `len_xn` is the length. -/
def divIdx (x : Fin n) (lms : List (Mon n)) : List ℕ := (List.range lms.length).filter fun i => decide (lms.getD i 0 x ≠ 0)

/-- Reading entry `k` of an array of `cap` entries, filled with `l` and zero behind (`calloc`). -/
def cread (cap : ℕ) (l : List ℕ) (k : ℕ) : Except Err ℕ :=
  match l[k]? with
  | some d => .ok d
  | none => if k < cap then .ok 0 else .error .undef

/-- `member_xxn(exp, lmb + i * nv, dquot - i, &pos, nv)`, hilbert.c 663-672. -/
def member (x : Fin n) (lmb : List (Mon n)) (i : ℕ) : Option ℕ :=
  ((List.range (lmb.length - i)).drop 1).find? fun j => eqXxn x (lmb.getD i 0) (lmb.getD (i + j) 0)

/-- One turn of the loop filling `len_gb_xn`, hilbert.c 3506-3517; `k` is the length of the list
(`start_cf_gb_xn` is left out, it cancels in `copy_poly_in_matrix_from_bs`). -/
def lenStep (G : List (Poly n)) (D : List ℕ) (s : List ℕ) (i : ℕ) : Except Err (List ℕ) := do
  let d ← cread G.length D s.length
  if i = d then
    if s.length < D.length then .ok (s ++ [(G.getD i []).length]) else .error .undef
  else .ok s

/-- One turn of the first loop over the monomial basis, hilbert.c 3537-3576; the state is `count_lm` and the
entries of `extra_nf`, which has room for `dquot - len_xn`. -/
def scanStep (x : Fin n) (lms lmb : List (Mon n)) (D : List ℕ) (s : ℕ × List ℕ) (i : ℕ) : Except Err (ℕ × List ℕ) :=
  if (member x lmb i).isSome then .ok s
  else do
    let d ← cread lms.length D s.1
    if eqXxn x (lmb.getD i 0) (lms.getD d 0) then .ok (s.1 + 1, s.2)
    else if D.any fun j => divXxn x (lmb.getD i 0) (lms.getD j 0) then
      if s.2.length < lmb.length - D.length then .ok (s.1, s.2 ++ [i]) else .error .undef
    else .ok s

/-- hilbert.c 3584-3599; `us` is `unstable_staircase`. -/
def threshold (us : ℤ) (t : ℕ) : ℕ :=
  if us = 0 then 0 else if us = 1 then (t + 1) / 4 else if us = 2 then t / 2 else if us = 3 then (3 * t + 1) / 4 else t

/-- The loop of `copy_poly_in_matrix_from_bs_32`, hilbert.c 1202-1213, over the columns; the terms are given from the
last to the first. -/
def scanPoly (p : ℕ) : List (Mon n) → Poly n → Except Err (List ℕ)
  | [], _ => .ok []
  | _ :: _, [] => .error .undef
  | b :: bs, t :: ts =>
    if t.1 = b then (scanPoly p bs ts).map fun r => (p - t.2) :: r
    else (scanPoly p bs (t :: ts)).map fun r => 0 :: r

/-- `copy_poly_in_matrix_from_bs_32`, hilbert.c 1164-1217 (the branch `1==0 && ..` is never taken); the variants for 8
and 16 bits have the same text. -/
def polyRow (p : ℕ) (lmb : List (Mon n)) (P : Poly n) (len : ℕ) : Except Err (List ℕ) :=
  if len = lmb.length + 1 then .ok (((P.take len).reverse.take lmb.length).map fun t => p - t.2)
  else scanPoly p lmb (P.take len).reverse

/-- The loop of `copy_nf_in_matrix_from_bs_32`, hilbert.c 1286-1292: the index of the column is not bounded. -/
def scanNf : List (Mon n) → Poly n → Except Err (List ℕ)
  | bs, [] => .ok (bs.map fun _ => 0)
  | [], _ :: _ => .error .undef
  | b :: bs, t :: ts =>
    if t.1 = b then (scanNf bs ts).map fun r => t.2 :: r else (scanNf bs (t :: ts)).map fun r => 0 :: r

/-- `copy_nf_in_matrix_from_bs_32`, hilbert.c 1271-1295. -/
def nfRowM (lmb : List (Mon n)) : Option (Poly n) → Except Err (List ℕ)
  | none => .ok (lmb.map fun _ => 0)
  | some P => scanNf lmb P.reverse

/-- The entry `k` of an array of known length. -/
def aread {α : Type*} (l : List α) (k : ℕ) : Except Err α :=
  match l[k]? with
  | some a => .ok a
  | none => .error .undef

/-- State of the second loop: the pairs (`triv_idx`, `triv_pos`), (`dense_idx`, row of `dense_mat`), `count` and
`count_nf`. -/
structure BSt where
  triv : List (ℕ × ℕ)
  dense : List (ℕ × List ℕ)
  count : ℕ
  countNf : ℕ

/-- One turn of the second loop over the monomial basis, hilbert.c 3734-3854. -/
def buildStep (p : ℕ) (x : Fin n) (G : List (Poly n)) (lms lmb : List (Mon n)) (D lens extra : List ℕ)
    (N : List (Option (Poly n))) (s : BSt) (i : ℕ) : Except Err BSt :=
  match member x lmb i with
  | some j =>
    if s.triv.length < lmb.length - (D.length + extra.length) then .ok { s with triv := s.triv ++ [(i, j + i)] }
    else .error .undef
  | none =>
    if s.dense.length < D.length + extra.length then do
      let d ← cread lms.length D s.count
      if eqXxn x (lmb.getD i 0) (lms.getD d 0) then do
        let len ← aread lens s.count
        let r ← polyRow p lmb (G.getD d []) len
        if D.length < s.count + 1 then .error .null
        else .ok { s with dense := s.dense ++ [(i, r)], count := s.count + 1 }
      else do
        let e ← cread (lmb.length - D.length) extra s.countNf
        if i = e then do
          let f ← aread N s.countNf
          let r ← nfRowM lmb f
          if extra.length < s.countNf + 1 then .error .null
          else .ok { s with dense := s.dense ++ [(i, r)], countNf := s.countNf + 1 }
        else .error .null
    else .error .undef

/-- The number of zeros at the end of a row, hilbert.c 3855-3864. -/
def dstOf (r : List ℕ) : ℕ := (r.reverse.takeWhile fun c => decide (c = 0)).length

/-- `sp_matfglm_t`: `triv_idx`/`triv_pos`, `dense_idx`/rows of `dense_mat`/`dst`. -/
structure MMat where
  ncols : ℕ
  triv : List (ℕ × ℕ)
  dense : List (ℕ × List ℕ × ℕ)

/-- `build_matrixn_unstable_from_bs_trace`, hilbert.c 3471-3883; `nf` is the computation of normal forms, `core_nf`
(C59), applied to the list of monomials of 3637-3646. -/
def build (p : ℕ) (x : Fin n) (us : ℤ) (G : List (Poly n)) (lmb : List (Mon n))
    (nf : List (Poly n) → List (Option (Poly n))) : Except Err MMat := do
  let lms := G.map F4.lead
  let D := divIdx x lms
  let lens ← (List.range G.length).foldlM (lenStep G D) []
  if lmb.length < D.length then .error .undef
  else do
    let s ← (List.range lmb.length).foldlM (scanStep x lms lmb D) (0, [])
    if threshold us (lmb.length - D.length) < s.2.length then .error .null
    else do
      let N := if s.2.length = 0 then [] else
        nf (s.2.map fun i => [(Function.update (lmb.getD i 0) x (lmb.getD i 0 x + 1), 1)])
      let r ← (List.range lmb.length).foldlM (buildStep p x G lms lmb D lens s.2 N) ⟨[], [], 0, 0⟩
      .ok ⟨lmb.length, r.triv, r.dense.map fun q => (q.1, q.2, dstOf q.2)⟩

/-- The matrix as used by FGLM (C53). -/
def MMat.toMat (p : ℕ) (M : MMat) : Fglm.Mat (ZMod p) :=
  { ncols := M.ncols, triv := M.triv, dense := M.dense.map fun q => (q.1, fun k => ((q.2.1.getD k 0 : ℕ) : ZMod p)) }

/-- The matrix as used by the multiplication with a vector (C03). -/
def MMat.toSp (M : MMat) : MatVec.SpMat :=
  { ncols := M.ncols, triv := M.triv, dense := M.dense.map fun q => (q.1, fun k => q.2.1.getD k 0, q.2.2) }

/-! ### The staircase -/

theorem eqXxn_iff (x : Fin n) (a b : Mon n) : eqXxn x a b = true ↔ a + var x = b := by
  simp only [eqXxn, Bool.and_eq_true, List.all_eq_true, List.mem_finRange, Bool.or_eq_true, decide_eq_true_eq, true_implies]
  constructor
  · rintro ⟨h1, h2⟩
    funext i
    by_cases hi : i = x
    · subst hi; simpa [var] using h2
    · simpa [var, hi] using (h1 i).resolve_left hi
  · intro h
    subst h
    exact ⟨fun i => by by_cases hi : i = x <;> simp [var, hi], by simp [var]⟩

theorem divXxn_iff (x : Fin n) (a b : Mon n) : divXxn x a b = true ↔ b ≤ a + var x := by
  simp only [divXxn, Bool.and_eq_true, List.all_eq_true, List.mem_finRange, Bool.or_eq_true, decide_eq_true_eq, true_implies,
    Bool.not_eq_true', decide_eq_false_iff_not, not_lt]
  constructor
  · rintro ⟨h1, h2⟩ i
    by_cases hi : i = x
    · subst hi; simpa [var] using h2
    · simpa [var, hi] using (h1 i).resolve_left hi
  · intro h
    refine ⟨fun i => ?_, by simpa [var] using h x⟩
    by_cases hi : i = x
    · exact Or.inl hi
    · right
      simpa [var, hi] using h i

theorem update_eq (x : Fin n) (a : Mon n) : Function.update a x (a x + 1) = a + var x := by
  funext i
  by_cases hi : i = x
  · subst hi; simp [var]
  · simp [var, hi]

/-- The monomials outside of the ideal generated by `lms`, in increasing order, and the minimal generators `lms` in
increasing order. -/
structure Stair (lt : Mon n → Mon n → Prop) (lms lmb : List (Mon n)) : Prop where
  adm : Admissible lt
  lsort : lms.Pairwise lt
  lmin : ∀ a ∈ lms, ∀ b ∈ lms, a ≤ b → a = b
  bsort : lmb.Pairwise lt
  bmem : ∀ m, m ∈ lmb ↔ ∀ l ∈ lms, ¬ l ≤ m
  bne : lmb ≠ []

theorem getD_lt {α : Type*} {R : α → α → Prop} {l : List α} (h : l.Pairwise R) {i j : ℕ} (d : α) (hij : i < j) (hj : j < l.length) :
    R (l.getD i d) (l.getD j d) := by
  rw [List.getD_eq_getElem _ _ (hij.trans hj), List.getD_eq_getElem _ _ hj]
  exact List.pairwise_iff_getElem.mp h i j _ _ hij

theorem getD_mem {α : Type*} {l : List α} {i : ℕ} (d : α) (hi : i < l.length) : l.getD i d ∈ l := by
  rw [List.getD_eq_getElem _ _ hi]
  exact List.getElem_mem hi

theorem exists_getD {α : Type*} {l : List α} {a : α} (d : α) (h : a ∈ l) : ∃ i, i < l.length ∧ l.getD i d = a := by
  obtain ⟨i, hi, rfl⟩ := List.mem_iff_getElem.mp h
  exact ⟨i, hi, List.getD_eq_getElem _ _ hi⟩

variable {lt : Mon n → Mon n → Prop} {lms lmb : List (Mon n)}

theorem Stair.mx_lt (h : Stair lt lms lmb) (x : Fin n) {a b : Mon n} : lt (a + var x) (b + var x) ↔ lt a b := by
  refine ⟨fun hl => ?_, fun hl => h.adm.mul _ _ _ hl⟩
  rcases h.adm.total a b with h1 | h1 | h1
  · exact h1
  · rw [h1] at hl; exact absurd hl (h.adm.irrefl _)
  · exact absurd (h.adm.trans _ _ _ hl (h.adm.mul _ _ (var x) h1)) (h.adm.irrefl _)

theorem Stair.lt_mx (h : Stair lt lms lmb) (x : Fin n) (a : Mon n) : lt a (a + var x) := by
  have := h.adm.mul 0 (var x) a (h.adm.one_lt (var x) (by
    intro h0
    have := congrFun h0 x
    simp [var] at this))
  rwa [zero_add, add_comm] at this

theorem Stair.idx_lt (h : Stair lt lms lmb) {i j : ℕ} (hi : i < lmb.length) (_hj : j < lmb.length)
    (hl : lt (lmb.getD i 0) (lmb.getD j 0)) : i < j := by
  rcases lt_trichotomy i j with h1 | h1 | h1
  · exact h1
  · rw [h1] at hl; exact absurd hl (h.adm.irrefl _)
  · exact absurd (h.adm.trans _ _ _ hl (getD_lt h.bsort 0 h1 hi)) (h.adm.irrefl _)

theorem Stair.idx_inj (h : Stair lt lms lmb) {i j : ℕ} (hi : i < lmb.length) (hj : j < lmb.length)
    (he : lmb.getD i 0 = lmb.getD j 0) : i = j := by
  rcases lt_trichotomy i j with h1 | h1 | h1
  · have := getD_lt h.bsort 0 h1 hj
    rw [he] at this; exact absurd this (h.adm.irrefl _)
  · exact h1
  · have := getD_lt h.bsort 0 h1 hi
    rw [he] at this; exact absurd this (h.adm.irrefl _)

theorem Stair.not_mem (h : Stair lt lms lmb) {m : Mon n} (hm : m ∈ lms) : m ∉ lmb := fun hb => (h.bmem m).mp hb m hm le_rfl

theorem member_some (x : Fin n) (lmb : List (Mon n)) (i j : ℕ) (hm : member x lmb i = some j) :
    i + j < lmb.length ∧ lmb.getD i 0 + var x = lmb.getD (i + j) 0 := by
  have h1 := List.find?_some hm
  have h2 := List.mem_of_find?_eq_some hm
  have h3 := List.mem_range.mp (List.mem_of_mem_drop h2)
  exact ⟨by omega, (eqXxn_iff _ _ _).mp h1⟩

theorem member_none (h : Stair lt lms lmb) (x : Fin n) {i : ℕ} (hi : i < lmb.length) (hm : member x lmb i = none) :
    lmb.getD i 0 + var x ∉ lmb := by
  intro hb
  obtain ⟨k, hk, he⟩ := exists_getD 0 hb
  have hik : i < k := h.idx_lt hi hk (by rw [he]; exact h.lt_mx x _)
  rw [member, List.find?_eq_none] at hm
  refine hm (k - i) ?_ ((eqXxn_iff _ _ _).mpr ?_)
  · rw [List.mem_drop_iff_getElem]
    exact ⟨k - i - 1, by simp; omega, by simp; omega⟩
  · rw [Nat.add_sub_cancel' hik.le, he]

/-- A leading monomial divisible by the variable comes from a monomial of the basis. -/
theorem Stair.pred (h : Stair lt lms lmb) {x : Fin n} {L : Mon n} (hL : L ∈ lms) (hx : L x ≠ 0) :
    ∃ i, i < lmb.length ∧ lmb.getD i 0 + var x = L := by
  have e : L - var x + var x = L := by
    funext i
    by_cases hi : i = x
    · subst hi; simp [var]; omega
    · simp [var, hi]
  have : L - var x ∈ lmb := by
    rw [h.bmem]
    intro l hl hle
    have h1 : l ≤ L := hle.trans (by intro i; exact Nat.sub_le _ _)
    have h2 := h.lmin l hl L hL h1
    subst h2
    have := hle x
    simp [var] at this
    omega
  obtain ⟨i, hi, he⟩ := exists_getD 0 this
  exact ⟨i, hi, by rw [he, e]⟩

/-- A monomial that leaves the basis is a multiple of a leading monomial divisible by the variable. -/
theorem Stair.leave (h : Stair lt lms lmb) {x : Fin n} {b : Mon n} (hb : b ∈ lmb) (hn : b + var x ∉ lmb) :
    ∃ L ∈ lms, L x ≠ 0 ∧ L ≤ b + var x := by
  rw [h.bmem] at hn
  push Not at hn
  obtain ⟨L, hL, hle⟩ := hn
  refine ⟨L, hL, fun h0 => (h.bmem b).mp hb L hL fun i => ?_, hle⟩
  have := hle i
  by_cases hi : i = x
  · rw [hi, h0]; exact Nat.zero_le _
  · simpa [var, hi] using this

theorem mem_divIdx {x : Fin n} {k : ℕ} : k ∈ divIdx x lms ↔ k < lms.length ∧ lms.getD k 0 x ≠ 0 := by
  simp [divIdx]

theorem divIdx_sorted (x : Fin n) (lms : List (Mon n)) : (divIdx x lms).Pairwise (· < ·) :=
  List.Pairwise.filter _ List.pairwise_lt_range

/-- The leading monomial at position `t` of `div_xn`. -/
def tm (x : Fin n) (lms : List (Mon n)) (t : ℕ) : Mon n := lms.getD ((divIdx x lms).getD t 0) 0

theorem tm_mem {x : Fin n} {t : ℕ} (ht : t < (divIdx x lms).length) : tm x lms t ∈ lms ∧ tm x lms t x ≠ 0 := by
  have := mem_divIdx.mp (getD_mem (l := divIdx x lms) 0 ht)
  exact ⟨getD_mem 0 this.1, this.2⟩

theorem tm_of_mem {x : Fin n} {L : Mon n} (hL : L ∈ lms) (hx : L x ≠ 0) : ∃ t, t < (divIdx x lms).length ∧ tm x lms t = L := by
  obtain ⟨k, hk, rfl⟩ := exists_getD 0 hL
  obtain ⟨t, ht, he⟩ := exists_getD (l := divIdx x lms) 0 (mem_divIdx.mpr ⟨hk, hx⟩)
  exact ⟨t, ht, by rw [tm, he]⟩

theorem Stair.tm_lt (h : Stair lt lms lmb) {x : Fin n} {s t : ℕ} (hst : s < t) (ht : t < (divIdx x lms).length) :
    lt (tm x lms s) (tm x lms t) :=
  getD_lt h.lsort 0 (getD_lt (divIdx_sorted x lms) 0 hst ht) (mem_divIdx.mp (getD_mem (l := divIdx x lms) 0 ht)).1

/-- The monomial `i` lands on a leading monomial. -/
def Hit (x : Fin n) (lms lmb : List (Mon n)) (i : ℕ) : Prop := lmb.getD i 0 + var x ∈ lms

instance (x : Fin n) (lms lmb : List (Mon n)) (i : ℕ) : Decidable (Hit x lms lmb i) :=
  inferInstanceAs (Decidable (_ ∈ lms))

/-- The monomial `i` lands on a proper multiple of a leading monomial. -/
def Extra (x : Fin n) (lms lmb : List (Mon n)) (i : ℕ) : Prop := lmb.getD i 0 + var x ∉ lms ∧ lmb.getD i 0 + var x ∉ lmb

instance (x : Fin n) (lms lmb : List (Mon n)) (i : ℕ) : Decidable (Extra x lms lmb i) :=
  inferInstanceAs (Decidable (_ ∧ _))

def hits (x : Fin n) (lms lmb : List (Mon n)) (k : ℕ) : ℕ := ((List.range k).filter fun i => decide (Hit x lms lmb i)).length

def extras (x : Fin n) (lms lmb : List (Mon n)) (k : ℕ) : List ℕ := (List.range k).filter fun i => decide (Extra x lms lmb i)

theorem hits_succ (x : Fin n) (lms lmb : List (Mon n)) (k : ℕ) :
    hits x lms lmb (k + 1) = hits x lms lmb k + if Hit x lms lmb k then 1 else 0 := by
  rw [hits, List.range_succ, List.filter_append, List.length_append, ← hits]
  by_cases h : Hit x lms lmb k <;> simp [h]

theorem extras_succ (x : Fin n) (lms lmb : List (Mon n)) (k : ℕ) :
    extras x lms lmb (k + 1) = extras x lms lmb k ++ if Extra x lms lmb k then [k] else [] := by
  rw [extras, List.range_succ, List.filter_append, ← extras]
  by_cases h : Extra x lms lmb k <;> simp [h]

/-- The leading monomials are met in the order of the basis. -/
theorem Stair.order (h : Stair lt lms lmb) (x : Fin n) : ∀ k, k ≤ lmb.length →
    hits x lms lmb k ≤ (divIdx x lms).length ∧
    (∀ t, t < hits x lms lmb k → ∃ j, j < k ∧ lmb.getD j 0 + var x = tm x lms t) ∧
    ∀ t, hits x lms lmb k ≤ t → t < (divIdx x lms).length → ∀ j, j < k → lmb.getD j 0 + var x ≠ tm x lms t := by
  intro k
  induction k with
  | zero => intro _; exact ⟨by simp [hits], by simp [hits], by simp⟩
  | succ k ih =>
    intro hk
    obtain ⟨i1, i2, i3⟩ := ih (by omega)
    have inj : ∀ j, j < k → lmb.getD j 0 + var x ≠ lmb.getD k 0 + var x := by
      intro j hj he
      have := h.idx_inj (by omega) (by omega) (add_right_cancel he)
      omega
    rw [hits_succ]
    by_cases hh : Hit x lms lmb k
    · rw [if_pos hh]
      have hx : (lmb.getD k 0 + var x) x ≠ 0 := by simp [var]
      obtain ⟨t, ht, he⟩ := tm_of_mem hh hx
      have hct : hits x lms lmb k ≤ t := by
        by_contra hlt
        obtain ⟨j, hj, he'⟩ := i2 t (by omega)
        exact inj j hj (by rw [he', he])
      have hceq : t = hits x lms lmb k := by
        by_contra hne
        have hlt : hits x lms lmb k < t := by omega
        obtain ⟨j, hj, hje⟩ := h.pred (tm_mem (lms := lms) (x := x) (hlt.trans ht)).1 (tm_mem (hlt.trans ht)).2
        have h1 := h.tm_lt hlt ht
        rw [← hje, he, h.mx_lt] at h1
        exact i3 _ le_rfl (hlt.trans ht) j (h.idx_lt hj (by omega) h1) hje
      subst hceq
      refine ⟨by omega, fun t ht' => ?_, fun t ht1 ht2 j hj hje => ?_⟩
      · rcases Nat.lt_succ_iff_lt_or_eq.mp ht' with h1 | h1
        · obtain ⟨j, hj, he'⟩ := i2 t h1
          exact ⟨j, by omega, he'⟩
        · exact ⟨k, by omega, by rw [h1, he]⟩
      · rcases Nat.lt_succ_iff_lt_or_eq.mp hj with h1 | h1
        · exact i3 t (by omega) ht2 j h1 hje
        · subst h1
          have h2 := h.tm_lt (x := x) (s := hits x lms lmb j) (t := t) (by omega) ht2
          rw [he, hje] at h2
          exact h.adm.irrefl _ h2
    · rw [if_neg hh, add_zero]
      refine ⟨i1, fun t ht => ?_, fun t ht1 ht2 j hj hje => ?_⟩
      · obtain ⟨j, hj, he⟩ := i2 t ht
        exact ⟨j, by omega, he⟩
      · rcases Nat.lt_succ_iff_lt_or_eq.mp hj with h1 | h1
        · exact i3 t ht1 ht2 j h1 hje
        · subst h1
          apply hh
          rw [Hit, hje]
          exact (tm_mem ht2).1

theorem Stair.hits_total (h : Stair lt lms lmb) (x : Fin n) : hits x lms lmb lmb.length = (divIdx x lms).length := by
  obtain ⟨h1, _, h3⟩ := h.order x lmb.length le_rfl
  by_contra hne
  have hlt : hits x lms lmb lmb.length < (divIdx x lms).length := by omega
  obtain ⟨j, hj, he⟩ := h.pred (tm_mem (lms := lms) (x := x) hlt).1 (tm_mem hlt).2
  exact h3 _ le_rfl hlt j hj he

/-- The three kinds exclude each other. -/
theorem counts (x : Fin n) (P : ℕ → Prop) [DecidablePred P] (hP : ∀ i, P i → ¬ Hit x lms lmb i) (a b : ℕ) (hab : a ≤ b) :
    hits x lms lmb b + ((List.range b).filter fun i => decide (P i)).length ≤
      hits x lms lmb a + ((List.range a).filter fun i => decide (P i)).length + (b - a) := by
  induction b, hab using Nat.le_induction with
  | base => simp
  | succ b hb ih =>
    rw [hits_succ, List.range_succ, List.filter_append, List.length_append]
    by_cases h1 : Hit x lms lmb b
    · have h2 : ¬ P b := fun h2 => hP b h2 h1
      simp [h1, h2]
      omega
    · by_cases h2 : P b <;> simp [h1, h2] <;> omega

/-- The comparison with the next leading monomial (in both loops): no access outside the array, and it succeeds
exactly if the product is a leading monomial. -/
theorem Stair.next (h : Stair lt lms lmb) (x : Fin n) {i : ℕ} (hi : i < lmb.length) (hn : lmb.getD i 0 + var x ∉ lmb) :
    ∃ d, cread lms.length (divIdx x lms) (hits x lms lmb i) = .ok d ∧
      (eqXxn x (lmb.getD i 0) (lms.getD d 0) = true ↔ Hit x lms lmb i) ∧
      (Hit x lms lmb i → d < lms.length ∧ lms.getD d 0 = lmb.getD i 0 + var x ∧ (divIdx x lms)[hits x lms lmb i]? = some d) := by
  obtain ⟨o1, o2, o3⟩ := h.order x i hi.le
  have o4 := (h.order x (i + 1) hi).1
  rw [hits_succ] at o4
  have hx : (lmb.getD i 0 + var x) x ≠ 0 := by simp [var]
  have inj : ∀ j, j < i → lmb.getD j 0 + var x ≠ lmb.getD i 0 + var x := by
    intro j hj he
    have := h.idx_inj (by omega) hi (add_right_cancel he)
    omega
  by_cases hc : hits x lms lmb i < (divIdx x lms).length
  · have e : (divIdx x lms)[hits x lms lmb i]? = some ((divIdx x lms).getD (hits x lms lmb i) 0) := by
      rw [List.getElem?_eq_getElem hc, List.getD_eq_getElem _ _ hc]
    have key : Hit x lms lmb i → tm x lms (hits x lms lmb i) = lmb.getD i 0 + var x := by
      intro hh
      obtain ⟨_, p2, _⟩ := h.order x (i + 1) hi
      rw [hits_succ, if_pos hh] at p2
      obtain ⟨j, hj, he⟩ := p2 (hits x lms lmb i) (by omega)
      rcases Nat.lt_succ_iff_lt_or_eq.mp hj with h1 | h1
      · exact absurd he (o3 _ le_rfl hc j h1)
      · rw [← he, h1]
    refine ⟨(divIdx x lms).getD (hits x lms lmb i) 0, by rw [cread, e], ?_, fun hh => ⟨?_, key hh, e⟩⟩
    · rw [eqXxn_iff]
      constructor
      · intro he
        rw [Hit, he]
        exact (tm_mem (x := x) hc).1
      · intro hh
        exact (key hh).symm
    · exact (mem_divIdx.mp (getD_mem (l := divIdx x lms) 0 hc)).1
  · have hce : hits x lms lmb i = (divIdx x lms).length := by omega
    have hnh : ¬ Hit x lms lmb i := by
      intro hh
      rw [if_pos hh] at o4
      omega
    have old : ∀ L ∈ lms, L x ≠ 0 → ∃ j, j < i ∧ lmb.getD j 0 + var x = L := by
      intro L hL hLx
      obtain ⟨t, ht, he⟩ := tm_of_mem hL hLx
      obtain ⟨j, hj, he'⟩ := o2 t (by omega)
      exact ⟨j, hj, by rw [he', he]⟩
    have hcl : hits x lms lmb i < lms.length := by
      by_contra hge
      have hle : (divIdx x lms).length ≤ lms.length := by
        refine (List.length_filter_le _ _).trans ?_
        rw [List.length_range]
      -- every leading monomial is divisible by `x`
      have hall : ∀ L ∈ lms, L x ≠ 0 := by
        intro L hL
        have hlen : ((List.range lms.length).filter fun i => decide (lms.getD i 0 x ≠ 0)).length = (List.range lms.length).length := by
          rw [List.length_range]
          show (divIdx x lms).length = _
          omega
        rw [List.length_filter_eq_length_iff] at hlen
        obtain ⟨k, hk, rfl⟩ := exists_getD 0 hL
        simpa using hlen k (List.mem_range.mpr hk)
      by_cases hy : ∃ y : Fin n, y ≠ x
      · obtain ⟨y, hy⟩ := hy
        have hin : ∀ k : ℕ, (fun j => if j = y then k else 0 : Mon n) ∈ lmb := by
          intro k
          rw [h.bmem]
          intro l hl hle
          have := hle x
          simp only [if_neg hy.symm] at this
          exact hall l hl (Nat.le_zero.mp this)
        have hinj : Function.Injective (fun k : ℕ => (fun j => if j = y then k else 0 : Mon n)) := by
          intro a b hab
          have := congrFun hab y
          simpa using this
        exact Set.not_injOn_infinite_finite_image (s := Set.univ) (f := fun k : ℕ => (fun j => if j = y then k else 0 : Mon n))
          Set.infinite_univ ((List.finite_toSet lmb).subset (by rintro _ ⟨k, _, rfl⟩; exact hin k)) hinj.injOn
      · push Not at hy
        obtain ⟨L, hL, hLx, hle⟩ := h.leave (getD_mem 0 hi) hn
        apply hnh
        have hbx := (h.bmem _).mp (getD_mem (l := lmb) 0 hi) L hL
        have e : L = lmb.getD i 0 + var x := by
          funext j
          rw [hy j]
          have h1 := hle x
          have h2 : ¬ L x ≤ lmb.getD i 0 x := fun h2 => hbx fun j => by rw [hy j]; exact h2
          simp only [Pi.add_apply, var, if_true] at h1 ⊢
          omega
        rw [Hit, ← e]
        exact hL
    refine ⟨0, ?_, ⟨fun he => ?_, fun hh => absurd hh hnh⟩, fun hh => absurd hh hnh⟩
    · rw [cread, hce, List.getElem?_eq_none le_rfl]
      rw [if_pos (by omega)]
    · rw [eqXxn_iff] at he
      rw [Hit, he]
      exact getD_mem 0 (by omega)

theorem Stair.div_ne (h : Stair lt lms lmb) (x : Fin n) : divIdx x lms ≠ [] := by
  have hlen := List.length_pos_of_ne_nil h.bne
  have hi : lmb.length - 1 < lmb.length := by omega
  have hn : lmb.getD (lmb.length - 1) 0 + var x ∉ lmb := by
    intro hb
    obtain ⟨k, hk, he⟩ := exists_getD 0 hb
    have := h.idx_lt hi hk (by rw [he]; exact h.lt_mx x _)
    omega
  obtain ⟨L, hL, hx, _⟩ := h.leave (getD_mem 0 hi) hn
  obtain ⟨t, ht, _⟩ := tm_of_mem hL hx
  intro h0
  rw [h0] at ht
  simp at ht

/-! ### The loops -/

theorem lenLoop (G : List (Poly n)) (q : ℕ → Prop) [DecidablePred q] (hne : (List.range G.length).filter (fun i => decide (q i)) ≠ []) :
    ∀ k, k ≤ G.length → (List.range k).foldlM (lenStep G ((List.range G.length).filter fun i => decide (q i))) [] =
      .ok (((List.range k).filter fun i => decide (q i)).map fun i => (G.getD i []).length) := by
  intro k
  induction k with
  | zero => intro _; rfl
  | succ k ih =>
    intro hk
    rw [List.range_succ, List.foldlM_append, ih (by omega)]
    obtain ⟨m, hm⟩ : ∃ m, G.length = k + (m + 1) := ⟨G.length - k - 1, by omega⟩
    have hD : (List.range G.length).filter (fun i => decide (q i)) = (List.range k).filter (fun i => decide (q i)) ++
        (List.map (fun x => k + x) (List.range (m + 1))).filter (fun i => decide (q i)) := by
      rw [hm, List.range_add, List.filter_append]
    simp only [Except.bind, bind, List.foldlM_cons, List.foldlM_nil, pure, Except.pure, lenStep, List.length_map, List.filter_append]
    set D := (List.range G.length).filter fun i => decide (q i) with hDd
    by_cases hq : q k
    · have e : (List.map (fun x => k + x) (List.range (m + 1))).filter (fun i => decide (q i)) =
          k :: (List.map (fun x => k + x) (List.map Nat.succ (List.range m))).filter (fun i => decide (q i)) := by
        rw [List.range_succ_eq_map, List.map_cons, List.filter_cons_of_pos (by simpa using hq), Nat.add_zero]
      rw [e] at hD
      have h1 : D[((List.range k).filter fun i => decide (q i)).length]? = some k := by
        rw [hD, List.getElem?_append_right le_rfl, Nat.sub_self]; rfl
      have h2 : ((List.range k).filter fun i => decide (q i)).length < D.length := by
        rw [hD]; simp
      have h3 : cread G.length D ((List.range k).filter fun i => decide (q i)).length = .ok k := by rw [cread, h1]
      simp [h3, h2, hq]
    · have hno : ∀ d, cread G.length D ((List.range k).filter fun i => decide (q i)).length = .ok d → k ≠ d := by
        intro d hd hkd
        subst hkd
        rw [cread] at hd
        split at hd
        · rename_i d' hd'
          have h1 := List.mem_of_getElem? hd'
          cases hd
          simp [hDd] at h1
          exact hq h1.2
        · rename_i hn
          split_ifs at hd
          injection hd with hd
          subst hd
          simp only [List.range_zero, List.filter_nil, List.length_nil] at hn
          rw [List.getElem?_eq_none_iff] at hn
          exact hne (List.eq_nil_of_length_eq_zero (Nat.le_zero.mp hn))
      have hok : ∃ d, cread G.length D ((List.range k).filter fun i => decide (q i)).length = .ok d := by
        have hle : ((List.range k).filter fun i => decide (q i)).length < G.length := by
          have := List.length_filter_le (fun i => decide (q i)) (List.range k)
          rw [List.length_range] at this
          omega
        rw [cread]
        split
        · exact ⟨_, rfl⟩
        · rw [if_pos hle]; exact ⟨_, rfl⟩
      obtain ⟨d, hd⟩ := hok
      simp [hd, hno d hd, hq]

theorem scanLoop (h : Stair lt lms lmb) (x : Fin n) : ∀ k, k ≤ lmb.length →
    (List.range k).foldlM (scanStep x lms lmb (divIdx x lms)) (0, []) = .ok (hits x lms lmb k, extras x lms lmb k) := by
  intro k
  induction k with
  | zero => intro _; rfl
  | succ k ih =>
    intro hk
    rw [List.range_succ, List.foldlM_append, ih (by omega)]
    simp only [Except.bind, bind, List.foldlM_cons, List.foldlM_nil, pure, Except.pure]
    have key : scanStep x lms lmb (divIdx x lms) (hits x lms lmb k, extras x lms lmb k) k =
        .ok (hits x lms lmb (k + 1), extras x lms lmb (k + 1)) := by
      rw [scanStep, hits_succ, extras_succ]
      by_cases hm : (member x lmb k).isSome = true
      · rw [if_pos hm]
        obtain ⟨j, hj⟩ := Option.isSome_iff_exists.mp hm
        obtain ⟨hj1, hj2⟩ := member_some x lmb k j hj
        have hb : lmb.getD k 0 + var x ∈ lmb := by rw [hj2]; exact getD_mem 0 hj1
        have h1 : ¬ Hit x lms lmb k := fun hh => h.not_mem hh hb
        have h2 : ¬ Extra x lms lmb k := fun hh => hh.2 hb
        rw [if_neg h1, if_neg h2, List.append_nil, add_zero]
      · rw [if_neg hm]
        have hb := member_none h x (by omega) (by simpa using hm : member x lmb k = none)
        obtain ⟨d, hd, hiff, _⟩ := h.next x (by omega : k < lmb.length) hb
        simp only [hd, bind, Except.bind]
        by_cases hh : Hit x lms lmb k
        · have h2 : ¬ Extra x lms lmb k := fun he => he.1 hh
          rw [if_pos (hiff.mpr hh), if_pos hh, if_neg h2, List.append_nil]
        · have h2 : Extra x lms lmb k := ⟨hh, hb⟩
          rw [if_neg (fun he => hh (hiff.mp he)), if_neg hh, if_pos h2, add_zero]
          have hany : ((divIdx x lms).any fun j => divXxn x (lmb.getD k 0) (lms.getD j 0)) = true := by
            obtain ⟨L, hL, hLx, hle⟩ := h.leave (getD_mem 0 (by omega)) hb
            obtain ⟨t, ht, rfl⟩ := tm_of_mem hL hLx
            rw [List.any_eq_true]
            exact ⟨_, getD_mem 0 ht, (divXxn_iff _ _ _).mpr hle⟩
          rw [if_pos hany]
          have hcap : (extras x lms lmb k).length < lmb.length - (divIdx x lms).length := by
            have c1 := counts (lms := lms) (lmb := lmb) x (Extra x lms lmb) (fun i he hh => he.1 hh) 0 k (Nat.zero_le _)
            have c2 := counts (lms := lms) (lmb := lmb) x (fun _ => False) (fun i he => he.elim) (k + 1) lmb.length hk
            have c3 := hits_succ x lms lmb k
            rw [if_neg hh] at c3
            rw [h.hits_total] at c2
            simp [hits] at c1 c2 c3
            have e : hits x lms lmb k = ((List.range k).filter fun i => decide (Hit x lms lmb i)).length := rfl
            have e2 : (extras x lms lmb k).length = ((List.range k).filter fun i => decide (Extra x lms lmb i)).length := rfl
            omega
          rw [if_pos hcap]
    rw [key]

/-- Invariant of the second loop. -/
structure BInv (x : Fin n) (lms lmb : List (Mon n)) (R : ℕ → List ℕ → Prop) (k : ℕ) (s : BSt) : Prop where
  count : s.count = hits x lms lmb k
  countNf : s.countNf = (extras x lms lmb k).length
  lt : s.triv.length = ((List.range k).filter fun i => decide (lmb.getD i 0 + var x ∈ lmb)).length
  ld : s.dense.length = hits x lms lmb k + (extras x lms lmb k).length
  triv : ∀ q ∈ s.triv, q.2 < lmb.length ∧ lmb.getD q.1 0 + var x = lmb.getD q.2 0
  dense : ∀ q ∈ s.dense, q.1 < lmb.length ∧ R q.1 q.2
  cover : (s.triv.map Prod.fst ++ s.dense.map Prod.fst).Perm (List.range k)

theorem buildLoop (h : Stair lt lms lmb) (x : Fin n) (p : ℕ) (G : List (Poly n)) (N : List (Option (Poly n))) (R : ℕ → List ℕ → Prop)
    (hR1 : ∀ i, i < lmb.length → ∀ d, d < lms.length → lms.getD d 0 = lmb.getD i 0 + var x →
      ∃ r, polyRow p lmb (G.getD d []) (G.getD d []).length = .ok r ∧ R i r)
    (hR2 : ∀ i t : ℕ, (extras x lms lmb lmb.length)[t]? = some i → ∃ f r, N[t]? = some f ∧ nfRowM lmb f = .ok r ∧ R i r) :
    ∀ k, k ≤ lmb.length → ∃ s, (List.range k).foldlM (buildStep p x G lms lmb (divIdx x lms)
      ((divIdx x lms).map fun i => (G.getD i []).length) (extras x lms lmb lmb.length) N) ⟨[], [], 0, 0⟩ = .ok s ∧
      BInv x lms lmb R k s := by
  intro k
  induction k with
  | zero =>
    intro _
    exact ⟨_, rfl, ⟨rfl, rfl, rfl, rfl, by simp, by simp, by simp⟩⟩
  | succ k ih =>
    intro hk
    obtain ⟨s, hs, I⟩ := ih (by omega)
    rw [List.range_succ, List.foldlM_append, hs]
    simp only [Except.bind, bind, List.foldlM_cons, List.foldlM_nil, pure, Except.pure]
    have hsplit : extras x lms lmb lmb.length = extras x lms lmb k ++
        (List.map (fun j => k + j) (List.range (lmb.length - k))).filter (fun i => decide (Extra x lms lmb i)) := by
      conv_lhs => rw [extras, show lmb.length = k + (lmb.length - k) by omega]
      rw [List.range_add, List.filter_append]
      rfl
    have key : ∃ s', buildStep p x G lms lmb (divIdx x lms) ((divIdx x lms).map fun i => (G.getD i []).length)
        (extras x lms lmb lmb.length) N s k = .ok s' ∧ BInv x lms lmb R (k + 1) s' := by
      rw [buildStep]
      have perm1 : ((s.triv.map Prod.fst ++ [k]) ++ s.dense.map Prod.fst).Perm (List.range (k + 1)) := by
        rw [List.range_succ]
        refine List.Perm.trans ?_ (I.cover.append_right [k])
        rw [List.append_assoc, List.append_assoc]
        exact List.perm_append_comm.append_left _
      cases hm : member x lmb k with
      | some j =>
        obtain ⟨hj1, hj2⟩ := member_some x lmb k j hm
        have hb : lmb.getD k 0 + var x ∈ lmb := by rw [hj2]; exact getD_mem 0 hj1
        have h1 : ¬ Hit x lms lmb k := fun hh => h.not_mem hh hb
        have h2 : ¬ Extra x lms lmb k := fun hh => hh.2 hb
        have hcap : s.triv.length < lmb.length - ((divIdx x lms).length + (extras x lms lmb lmb.length).length) := by
          -- positions kept in the basis, leading monomials and the others are disjoint
          have c1 : ∀ m, ((List.range m).filter fun i => decide (lmb.getD i 0 + var x ∈ lmb)).length + hits x lms lmb m +
              (extras x lms lmb m).length = m := by
            intro m
            induction m with
            | zero => rfl
            | succ m ihm =>
              rw [hits_succ, extras_succ, List.range_succ, List.filter_append, List.length_append, List.length_append]
              by_cases a1 : lmb.getD m 0 + var x ∈ lmb
              · have a2 : ¬ Hit x lms lmb m := fun hh => h.not_mem hh a1
                have a3 : ¬ Extra x lms lmb m := fun hh => hh.2 a1
                simp only [a2, a3, if_false, List.filter_cons, a1, decide_true, if_true, List.filter_nil, List.length_cons, List.length_nil]
                omega
              · by_cases a2 : Hit x lms lmb m
                · have a3 : ¬ Extra x lms lmb m := fun hh => hh.1 a2
                  simp only [a2, a3, if_false, List.filter_cons, a1, decide_false, if_true, List.filter_nil, List.length_nil]
                  simp only [Bool.false_eq_true, if_false, List.length_nil]
                  omega
                · have a3 : Extra x lms lmb m := ⟨a2, a1⟩
                  simp only [a2, a3, if_false, List.filter_cons, a1, decide_false, if_true, List.filter_nil, List.length_nil, List.length_cons]
                  simp only [Bool.false_eq_true, if_false, List.length_nil]
                  omega
          have c2 := c1 lmb.length
          rw [h.hits_total] at c2
          have c3 : ((List.range lmb.length).filter fun i => decide (lmb.getD i 0 + var x ∈ lmb)).length ≥
              ((List.range (k + 1)).filter fun i => decide (lmb.getD i 0 + var x ∈ lmb)).length := by
            apply List.Sublist.length_le
            apply List.Sublist.filter
            exact List.range_sublist.mpr hk
          rw [List.range_succ, List.filter_append, List.length_append] at c3
          simp only [List.filter_cons, hb, decide_true, if_true, List.filter_nil, List.length_cons, List.length_nil] at c3
          rw [I.lt]
          omega
        simp only []
        rw [if_pos hcap]
        refine ⟨_, rfl, ?_⟩
        constructor
        · simp only; rw [I.count, hits_succ, if_neg h1, add_zero]
        · simp only; rw [I.countNf, extras_succ, if_neg h2, List.append_nil]
        · simp only [List.length_append, List.length_cons, List.length_nil]
          rw [I.lt, List.range_succ, List.filter_append, List.length_append]
          simp only [List.filter_cons, hb, decide_true, if_true, List.filter_nil, List.length_cons, List.length_nil]
        · simp only; rw [I.ld, hits_succ, if_neg h1, extras_succ, if_neg h2, List.append_nil, add_zero]
        · intro q hq
          rcases List.mem_append.mp hq with hq | hq
          · exact I.triv q hq
          · rw [List.mem_singleton] at hq
            subst hq
            simp only
            rw [add_comm j k]
            exact ⟨hj1, hj2⟩
        · exact I.dense
        · simp only [List.map_append, List.map_cons, List.map_nil]
          exact perm1
      | none =>
        have hb := member_none h x (by omega) hm
        obtain ⟨d, hd, hiff, hhit⟩ := h.next x (by omega : k < lmb.length) hb
        have perm2 : (s.triv.map Prod.fst ++ (s.dense.map Prod.fst ++ [k])).Perm (List.range (k + 1)) := by
          rw [List.range_succ, ← List.append_assoc]
          exact I.cover.append_right [k]
        have hlt : s.triv.length = ((List.range (k + 1)).filter fun i => decide (lmb.getD i 0 + var x ∈ lmb)).length := by
          rw [I.lt, List.range_succ, List.filter_append, List.length_append]
          simp only [List.filter_cons, hb, decide_false, List.filter_nil, Bool.false_eq_true, if_false, List.length_nil, add_zero]
        have hitsle := (h.order x (k + 1) hk).1
        rw [hits_succ] at hitsle
        have exle : (extras x lms lmb (k + 1)).length ≤ (extras x lms lmb lmb.length).length := by
          apply List.Sublist.length_le
          apply List.Sublist.filter
          exact List.range_sublist.mpr hk
        rw [extras_succ] at exle
        by_cases hh : Hit x lms lmb k
        · have h2 : ¬ Extra x lms lmb k := fun he => he.1 hh
          obtain ⟨hd1, hd2, hd3⟩ := hhit hh
          obtain ⟨r, hr, hRr⟩ := hR1 k (by omega) d hd1 hd2
          rw [if_pos hh] at hitsle
          rw [if_neg h2, List.append_nil] at exle
          simp only []
          rw [if_pos (by rw [I.ld]; omega)]
          simp only [I.count, hd, bind, Except.bind]
          rw [if_pos (hiff.mpr hh)]
          have hl : aread ((divIdx x lms).map fun i => (G.getD i []).length) (hits x lms lmb k) = .ok (G.getD d []).length := by
            rw [aread, List.getElem?_map, hd3]; rfl
          simp only [hl, hr]
          rw [if_neg (by omega)]
          refine ⟨_, rfl, ?_⟩
          constructor
          · simp only; rw [hits_succ, if_pos hh]
          · simp only; rw [I.countNf, extras_succ, if_neg h2, List.append_nil]
          · exact hlt
          · simp only [List.length_append, List.length_cons, List.length_nil]
            rw [I.ld, hits_succ, if_pos hh, extras_succ, if_neg h2, List.append_nil]
            omega
          · exact I.triv
          · intro q hq
            rcases List.mem_append.mp hq with hq | hq
            · exact I.dense q hq
            · rw [List.mem_singleton] at hq
              subst hq
              exact ⟨by simp only; omega, hRr⟩
          · simpa only [List.map_append, List.map_cons, List.map_nil] using perm2
        · have h2 : Extra x lms lmb k := ⟨hh, hb⟩
          have hex : (extras x lms lmb lmb.length)[(extras x lms lmb k).length]? = some k := by
            rw [hsplit, List.getElem?_append_right le_rfl, Nat.sub_self]
            obtain ⟨m, hm⟩ : ∃ m, lmb.length - k = m + 1 := ⟨lmb.length - k - 1, by omega⟩
            rw [hm, List.range_succ_eq_map, List.map_cons, List.filter_cons_of_pos (by simpa using h2), Nat.add_zero]
            rfl
          obtain ⟨f, r, hf, hr, hRr⟩ := hR2 k _ hex
          rw [if_pos h2, List.length_append] at exle
          rw [if_neg hh] at hitsle
          simp only [List.length_cons, List.length_nil] at exle
          simp only []
          rw [if_pos (by rw [I.ld]; omega)]
          simp only [I.count, hd, bind, Except.bind]
          rw [if_neg (fun he => hh (hiff.mp he))]
          have hc : cread (lmb.length - (divIdx x lms).length) (extras x lms lmb lmb.length) (extras x lms lmb k).length = .ok k := by
            rw [cread, hex]
          have hl : aread N (extras x lms lmb k).length = .ok f := by rw [aread, hf]
          simp only [I.countNf, hc, if_true, hl, hr]
          rw [if_neg (by omega)]
          refine ⟨_, rfl, ?_⟩
          constructor
          · simp only; rw [hits_succ, if_neg hh]; rfl
          · simp only; rw [extras_succ, if_pos h2, List.length_append]; rfl
          · exact hlt
          · simp only [List.length_append, List.length_cons, List.length_nil]
            rw [I.ld, hits_succ, if_neg hh, extras_succ, if_pos h2, List.length_append]
            simp only [List.length_cons, List.length_nil]
            omega
          · exact I.triv
          · intro q hq
            rcases List.mem_append.mp hq with hq | hq
            · exact I.dense q hq
            · rw [List.mem_singleton] at hq
              subst hq
              exact ⟨by simp only; omega, hRr⟩
          · simpa only [List.map_append, List.map_cons, List.map_nil] using perm2
    obtain ⟨s', h1, h2⟩ := key
    exact ⟨s', by rw [h1], h2⟩

/-! ### The rows -/

section Rows

variable {p : ℕ} {A : Type*} [AddCommGroup A] [Module (ZMod p) A]

/-- The linear combination of the monomials given by a row. -/
def comb (φ : Mon n → A) (r : List ℕ) (l : List (Mon n)) : A :=
  ∑ k ∈ Finset.range l.length, ((r.getD k 0 : ℕ) : ZMod p) • φ (l.getD k 0)

theorem comb_cons (φ : Mon n → A) (c : ℕ) (r : List ℕ) (b : Mon n) (l : List (Mon n)) :
    comb (p := p) φ (c :: r) (b :: l) = (c : ZMod p) • φ b + comb (p := p) φ r l := by
  rw [comb, comb, List.length_cons, Finset.sum_range_succ', add_comm]
  simp

theorem comb_zero (φ : Mon n → A) (l : List (Mon n)) : comb (p := p) φ (l.map fun _ => 0) l = 0 := by
  refine Finset.sum_eq_zero fun k hk => ?_
  have hk := Finset.mem_range.mp hk
  simp [hk]

/-- What is known of a row: reduced entries, and the linear combination it stands for. -/
structure RowFor (φ : Mon n → A) (lmb : List (Mon n)) (a : A) (r : List ℕ) : Prop where
  len : r.length = lmb.length
  red : ∀ c ∈ r, c < p
  comb : comb (p := p) φ r lmb = a

theorem RowFor.cons {φ : Mon n → A} {l : List (Mon n)} {a : A} {r : List ℕ} (h : RowFor (p := p) φ l a r) {c : ℕ} (hc : c < p)
    (b : Mon n) : RowFor (p := p) φ (b :: l) ((c : ZMod p) • φ b + a) (c :: r) := by
  refine ⟨by simp [h.len], ?_, by rw [comb_cons, h.comb]⟩
  intro d hd
  rcases List.mem_cons.mp hd with rfl | hd
  · exact hc
  · exact h.red d hd

theorem neg_cast {c : ℕ} (hc : c < p) : ((p - c : ℕ) : ZMod p) = -(c : ZMod p) := by
  rw [Nat.cast_sub hc.le, ZMod.natCast_self, zero_sub]

theorem scanPoly_spec (hadm : Admissible lt) (φ : Mon n → A) (hp : 0 < p) (z : Mon n × ℕ) (bs : List (Mon n)) :
    ∀ ts : Poly n, bs.Pairwise lt → (ts.map Prod.fst).Pairwise lt → (∀ t ∈ ts, t.1 ∈ bs) → (∀ t ∈ ts, 0 < t.2 ∧ t.2 < p) → z.1 ∉ bs →
    ∃ r, scanPoly p bs (ts ++ [z]) = .ok r ∧ RowFor (p := p) φ bs ((ts.map fun t => (-(t.2 : ZMod p)) • φ t.1).sum) r := by
  induction bs with
  | nil =>
    intro ts _ _ hm _ _
    cases ts with
    | nil => exact ⟨[], rfl, rfl, by simp, by simp [comb]⟩
    | cons t ts => simpa using hm t (by simp)
  | cons b bs ih =>
    intro ts hb hts hm hc hz
    rw [List.pairwise_cons] at hb
    have hzb : z.1 ≠ b := fun h => hz (by simp [h])
    have hz' : z.1 ∉ bs := fun h => hz (by simp [h])
    cases ts with
    | nil =>
      obtain ⟨r, hr, hR⟩ := ih [] hb.2 (by simp) (by simp) (by simp) hz'
      refine ⟨0 :: r, ?_, by simpa using hR.cons hp b⟩
      rw [List.nil_append] at hr ⊢
      rw [scanPoly, if_neg hzb, hr]
      rfl
    | cons t ts =>
      rw [List.map_cons, List.pairwise_cons] at hts
      have ht := hm t (by simp)
      have hct := hc t (by simp)
      by_cases he : t.1 = b
      · obtain ⟨r, hr, hR⟩ := ih ts hb.2 hts.2 (fun s hs => by
          rcases List.mem_cons.mp (hm s (by simp [hs])) with h1 | h1
          · have := hts.1 s.1 (List.mem_map_of_mem hs)
            rw [h1, he] at this
            exact absurd this (hadm.irrefl _)
          · exact h1) (fun s hs => hc s (by simp [hs])) hz'
        refine ⟨(p - t.2) :: r, ?_, ?_⟩
        · rw [List.cons_append, scanPoly, if_pos he, hr]; rfl
        · have := hR.cons (show p - t.2 < p by omega) b
          rw [neg_cast hct.2] at this
          rw [List.map_cons, List.sum_cons, he]
          exact this
      · have htb : t.1 ∈ bs := (List.mem_cons.mp ht).resolve_left he
        obtain ⟨r, hr, hR⟩ := ih (t :: ts) hb.2 (by rw [List.map_cons, List.pairwise_cons]; exact hts) (fun s hs => by
          rcases List.mem_cons.mp (hm s hs) with h1 | h1
          · rcases List.mem_cons.mp hs with rfl | hs
            · exact absurd h1 he
            · have h2 := hts.1 s.1 (List.mem_map_of_mem hs)
              rw [h1] at h2
              exact absurd (hadm.trans _ _ _ h2 (hb.1 _ htb)) (hadm.irrefl _)
          · exact h1) hc hz'
        refine ⟨0 :: r, ?_, by simpa using hR.cons hp b⟩
        rw [List.cons_append] at hr ⊢
        rw [scanPoly, if_neg he, hr]
        rfl

theorem scanNf_spec (hadm : Admissible lt) (φ : Mon n → A) (hp : 0 < p) (bs : List (Mon n)) :
    ∀ ts : Poly n, bs.Pairwise lt → (ts.map Prod.fst).Pairwise lt → (∀ t ∈ ts, t.1 ∈ bs) → (∀ t ∈ ts, t.2 < p) →
    ∃ r, scanNf bs ts = .ok r ∧ RowFor (p := p) φ bs ((ts.map fun t => (t.2 : ZMod p) • φ t.1).sum) r := by
  induction bs with
  | nil =>
    intro ts _ _ hm _
    cases ts with
    | nil => exact ⟨[], rfl, rfl, by simp, by simp [comb]⟩
    | cons t ts => simpa using hm t (by simp)
  | cons b bs ih =>
    intro ts hb hts hm hc
    cases ts with
    | nil =>
      refine ⟨(b :: bs).map fun _ => 0, rfl, by simp, ?_, by rw [comb_zero]; rfl⟩
      intro c hc
      obtain ⟨_, _, rfl⟩ := List.mem_map.mp hc
      exact hp
    | cons t ts =>
      rw [List.pairwise_cons] at hb
      rw [List.map_cons, List.pairwise_cons] at hts
      have ht := hm t (by simp)
      by_cases he : t.1 = b
      · obtain ⟨r, hr, hR⟩ := ih ts hb.2 hts.2 (fun s hs => by
          rcases List.mem_cons.mp (hm s (by simp [hs])) with h1 | h1
          · have := hts.1 s.1 (List.mem_map_of_mem hs)
            rw [h1, he] at this
            exact absurd this (hadm.irrefl _)
          · exact h1) (fun s hs => hc s (by simp [hs]))
        refine ⟨t.2 :: r, ?_, ?_⟩
        · rw [scanNf, if_pos he, hr]; rfl
        · rw [List.map_cons, List.sum_cons, he]
          exact hR.cons (hc t (by simp)) b
      · have htb : t.1 ∈ bs := (List.mem_cons.mp ht).resolve_left he
        obtain ⟨r, hr, hR⟩ := ih (t :: ts) hb.2 (by rw [List.map_cons, List.pairwise_cons]; exact hts) (fun s hs => by
          rcases List.mem_cons.mp (hm s hs) with h1 | h1
          · rcases List.mem_cons.mp hs with rfl | hs
            · exact absurd h1 he
            · have h2 := hts.1 s.1 (List.mem_map_of_mem hs)
              rw [h1] at h2
              exact absurd (hadm.trans _ _ _ h2 (hb.1 _ htb)) (hadm.irrefl _)
          · exact h1) hc
        refine ⟨0 :: r, ?_, by simpa using hR.cons hp b⟩
        rw [scanNf, if_neg he, hr]
        rfl

/-- The case where all monomials of the basis occur. -/
theorem full_spec (hadm : Admissible lt) (φ : Mon n → A) (bs : List (Mon n)) (ts : Poly n) (hb : bs.Pairwise lt)
    (hts : (ts.map Prod.fst).Pairwise lt) (hm : ∀ t ∈ ts, t.1 ∈ bs) (hc : ∀ t ∈ ts, 0 < t.2 ∧ t.2 < p) (hl : ts.length = bs.length) :
    RowFor (p := p) φ bs ((ts.map fun t => (-(t.2 : ZMod p)) • φ t.1).sum) (ts.map fun t => p - t.2) := by
  have hasym : ∀ a b, lt a b → lt b a → False := fun a b h1 h2 => hadm.irrefl _ (hadm.trans _ _ _ h1 h2)
  have he : ts.map Prod.fst = bs := by
    have hnd : (ts.map Prod.fst).Nodup := by
      refine hts.imp ?_
      intro a b h he
      rw [he] at h
      exact hadm.irrefl _ h
    have hsub : (ts.map Prod.fst).Subperm bs := hnd.subperm (by
      intro a ha
      obtain ⟨t, ht, rfl⟩ := List.mem_map.mp ha
      exact hm t ht)
    have hperm : (ts.map Prod.fst).Perm bs := hsub.perm_of_length_le (by simp [hl])
    exact hperm.eq_of_pairwise (fun a b _ _ h1 h2 => (hasym a b h1 h2).elim) hts hb
  subst he
  clear hb hl hm
  induction ts with
  | nil => exact ⟨rfl, by simp, by simp [comb]⟩
  | cons t ts ih =>
    rw [List.map_cons, List.pairwise_cons] at hts
    have h1 := ih hts.2 (fun s hs => hc s (by simp [hs]))
    have hct := hc t (by simp)
    have h2 := h1.cons (show p - t.2 < p by omega) t.1
    rw [neg_cast hct.2] at h2
    exact h2

/-- The row of a basis element whose leading monomial is met. -/
theorem polyRow_spec (hadm : Admissible lt) (φ : Mon n → A) (hp : 0 < p) (lmb : List (Mon n)) (hb : lmb.Pairwise lt) (P : Poly n)
    (L : Mon n) (t : Poly n) (hP : P = (L, 1) :: t) (hs : (t.map Prod.fst).Pairwise fun a b => lt b a) (hm : ∀ s ∈ t, s.1 ∈ lmb)
    (hc : ∀ s ∈ t, 0 < s.2 ∧ s.2 < p) (hL : L ∉ lmb) (hrel : φ L + (t.map fun s => (s.2 : ZMod p) • φ s.1).sum = 0) :
    ∃ r, polyRow p lmb P P.length = .ok r ∧ RowFor (p := p) φ lmb (φ L) r := by
  have hrev : (t.reverse.map Prod.fst).Pairwise lt := by
    rw [List.map_reverse, List.pairwise_reverse]
    exact hs
  have hsum : (t.reverse.map fun s => (-(s.2 : ZMod p)) • φ s.1).sum = φ L := by
    rw [List.map_reverse, List.sum_reverse]
    have : (t.map fun s => (-(s.2 : ZMod p)) • φ s.1).sum = -(t.map fun s => (s.2 : ZMod p) • φ s.1).sum := by
      rw [List.sum_neg, List.map_map]
      congr 1
      exact List.map_congr_left fun s _ => by simp
    rw [this, eq_comm, eq_neg_iff_add_eq_zero]
    exact hrel
  have hm' : ∀ s ∈ t.reverse, s.1 ∈ lmb := fun s hs => hm s (List.mem_reverse.mp hs)
  have hc' : ∀ s ∈ t.reverse, 0 < s.2 ∧ s.2 < p := fun s hs => hc s (List.mem_reverse.mp hs)
  have hrv : (P.take P.length).reverse = t.reverse ++ [(L, 1)] := by rw [List.take_length, hP, List.reverse_cons]
  rw [polyRow, hrv]
  by_cases hlen : P.length = lmb.length + 1
  · rw [if_pos hlen]
    have hl : t.reverse.length = lmb.length := by
      rw [hP, List.length_cons] at hlen
      rw [List.length_reverse]
      omega
    refine ⟨_, rfl, ?_⟩
    rw [← hl, List.take_left' rfl, ← hsum]
    exact full_spec hadm φ lmb _ hb hrev hm' hc' hl
  · rw [if_neg hlen]
    obtain ⟨r, hr, hR⟩ := scanPoly_spec hadm φ hp (L, 1) lmb t.reverse hb hrev hm' hc' hL
    rw [hsum] at hR
    exact ⟨r, hr, hR⟩

theorem dstOf_spec (r : List ℕ) : dstOf r ≤ r.length ∧ (∀ i, r.length - dstOf r ≤ i → r.getD i 0 = 0) ∧
    (dstOf r < r.length → r.getD (r.length - dstOf r - 1) 0 ≠ 0) := by
  have key : ∀ l : List ℕ, (l.takeWhile fun c => decide (c = 0)).length ≤ l.length ∧
      (∀ i, i < (l.takeWhile fun c => decide (c = 0)).length → l.getD i 0 = 0) ∧
      ((l.takeWhile fun c => decide (c = 0)).length < l.length → l.getD (l.takeWhile fun c => decide (c = 0)).length 0 ≠ 0) := by
    intro l
    induction l with
    | nil => simp
    | cons a l ih =>
      by_cases ha : a = 0
      · rw [List.takeWhile_cons_of_pos (by simpa using ha)]
        refine ⟨by simp; exact ih.1, fun i hi => ?_, fun hlt => ?_⟩
        · cases i with
          | zero => simpa using ha
          | succ i => simpa using ih.2.1 i (by simpa using hi)
        · simpa using ih.2.2 (by simpa using hlt)
      · rw [List.takeWhile_cons_of_neg (by simpa using ha)]
        simp [ha]
  obtain ⟨k1, k2, k3⟩ := key r.reverse
  rw [List.length_reverse] at k1 k3
  have get : ∀ i, i < r.length → r.reverse.getD i 0 = r.getD (r.length - 1 - i) 0 := by
    intro i hi
    rw [List.getD_eq_getElem _ _ (by simpa using hi), List.getElem_reverse, List.getD_eq_getElem _ _ (by omega)]
  refine ⟨k1, fun i hi => ?_, fun hlt => ?_⟩
  · by_cases hi' : i < r.length
    · have h1 := k2 (r.length - 1 - i) (by unfold dstOf at hi; omega)
      rw [get _ (by omega), show r.length - 1 - (r.length - 1 - i) = i by omega] at h1
      exact h1
    · exact List.getD_eq_default _ _ (by omega)
  · have h1 := k3 hlt
    have hlt' : (r.reverse.takeWhile fun c => decide (c = 0)).length < r.length := hlt
    rw [get _ hlt', show r.length - 1 - (r.reverse.takeWhile fun c => decide (c = 0)).length = r.length - dstOf r - 1 by
      unfold dstOf; omega] at h1
    exact h1

end Rows

/-! ### The matrix -/

section Matrix

open MvPolynomial

variable {p : ℕ} {A : Type*} [CommRing A] [Algebra (ZMod p) A]

/-- The value of a monomial. -/
def mval (pt : Fin n → A) (u : Mon n) : A := ∏ j, pt j ^ u j

theorem aeval_mono (pt : Fin n → A) (u : Mon n) (c : ZMod p) : aeval pt (monomial (fs u) c) = c • mval pt u := by
  rw [aeval_monomial, Algebra.smul_def, mval]
  congr 1
  rw [Finsupp.prod_fintype _ _ (fun i => pow_zero _)]
  rfl

theorem aeval_toMv (pt : Fin n → A) (f : Poly n) :
    aeval pt (toMv p f) = (f.map fun t => (t.2 : ZMod p) • mval pt t.1).sum := by
  rw [toMv, map_list_sum, List.map_map]
  congr 1
  exact List.map_congr_left fun t _ => aeval_mono pt t.1 _

theorem mval_mx (pt : Fin n → A) (x : Fin n) (u : Mon n) : mval pt (u + var x) = pt x * mval pt u := by
  have : ∀ j, pt j ^ (u + var x) j = pt j ^ u j * (if j = x then pt x else 1) := by
    intro j
    rw [Pi.add_apply, pow_add, var]
    by_cases h : j = x
    · subst h; simp
    · simp [h]
  rw [mval, Finset.prod_congr rfl fun j _ => this j, Finset.prod_mul_distrib, Finset.prod_ite_eq' Finset.univ x, mul_comm]
  simp [mval]

/-- What is used of the basis: monic polynomials ordered by their leading monomials, no term of one divisible by the
leading monomial of another. -/
structure RedBasis (p : ℕ) (G : List (Poly n)) : Prop where
  ok : ∀ f ∈ G, PolyOk .drl p f
  sorted : G.Pairwise fun a b => OKind.drl.lt (F4.lead a) (F4.lead b)
  red : ∀ f ∈ G, ∀ g ∈ G, f ≠ g → ∀ t ∈ f, ¬ F4.lead g ≤ t.1

theorem le_of_lt {O : OKind} {u v : Mon n} (h : v ≤ u) : ¬ O.lt u v := by
  intro hl
  have hv : u = v + (u - v) := by
    funext i
    exact (Nat.add_sub_cancel' (h i)).symm
  by_cases h0 : u - v = 0
  · rw [h0, add_zero] at hv
    rw [hv] at hl
    exact O.adm.irrefl _ hl
  · have := O.adm.mul 0 (u - v) v (O.adm.one_lt _ h0)
    rw [zero_add, add_comm, ← hv] at this
    exact O.adm.irrefl _ (O.adm.trans _ _ _ hl this)

theorem RedBasis.stair {G : List (Poly n)} (h : RedBasis p G) {lmb : List (Mon n)} (hs : lmb.Pairwise OKind.drl.lt)
    (hm : ∀ m, m ∈ lmb ↔ ∀ f ∈ G, ¬ F4.lead f ≤ m) (hne : lmb ≠ []) : Stair OKind.drl.lt (G.map F4.lead) lmb where
  adm := OKind.drl.adm
  lsort := List.pairwise_map.mpr h.sorted
  lmin := by
    intro a ha b hb hab
    obtain ⟨f, hf, rfl⟩ := List.mem_map.mp ha
    obtain ⟨g, hg, rfl⟩ := List.mem_map.mp hb
    by_contra hne
    exact h.red g hg f hf (fun e => hne (by rw [e])) _ (h.ok g hg).lead_mem hab
  bsort := hs
  bmem := by
    intro m
    rw [hm]
    simp
  bne := hne

theorem RedBasis.tail_mem {G : List (Poly n)} (h : RedBasis p G) {lmb : List (Mon n)} (hm : ∀ m, m ∈ lmb ↔ ∀ f ∈ G, ¬ F4.lead f ≤ m)
    {f : Poly n} (hf : f ∈ G) {t : Poly n} (ht : f = (F4.lead f, 1) :: t) (s : Mon n × ℕ) (hs : s ∈ t) : s.1 ∈ lmb := by
  rw [hm]
  intro g hg hle
  by_cases he : f = g
  · subst he
    have hsort := (h.ok f hf).sorted
    rw [ht, List.map_cons, List.pairwise_cons] at hsort
    exact le_of_lt hle (hsort.1 _ (List.mem_map_of_mem hs))
  · exact h.red f hf g hg he s (by rw [ht]; exact List.mem_cons_of_mem _ hs) hle

variable (p) in
/-- The properties of the matrix returned. -/
structure MatOk (x : Fin n) (lmb : List (Mon n)) (φ : Mon n → A) (M : MMat) : Prop where
  ncols : M.ncols = lmb.length
  triv : ∀ q ∈ M.triv, q.2 < lmb.length ∧ lmb.getD q.1 0 + var x = lmb.getD q.2 0
  dense : ∀ q ∈ M.dense, RowFor (p := p) φ lmb (φ (lmb.getD q.1 0 + var x)) q.2.1 ∧ q.2.2 = dstOf q.2.1
  cover : (M.triv.map Prod.fst ++ M.dense.map Prod.fst).Perm (List.range lmb.length)

theorem forall2_get {α β : Type*} {R : α → β → Prop} {l : List α} {m : List β} {i : ℕ} {a : α} (h : List.Forall₂ R l m)
    (ha : l[i]? = some a) : ∃ b, m[i]? = some b ∧ R a b := by
  induction h generalizing i with
  | nil => simp at ha
  | cons hab _ ih =>
    cases i with
    | zero =>
      simp only [List.getElem?_cons_zero, Option.some.injEq] at ha ⊢
      exact ⟨_, rfl, ha ▸ hab⟩
    | succ i => exact ih (by simpa using ha)

theorem build_spec [hp : Fact p.Prime] (x : Fin n) (us : ℤ) {G : List (Poly n)} (h : RedBasis p G)
    {lmb : List (Mon n)} (hs : lmb.Pairwise OKind.drl.lt) (hm : ∀ m, m ∈ lmb ↔ ∀ f ∈ G, ¬ F4.lead f ≤ m) (hne : lmb ≠ [])
    {nf : List (Poly n) → List (Option (Poly n))}
    (hnf : ∀ tbr, (∀ f ∈ tbr, InPoly p f) → List.Forall₂ (fun f r => (∀ q, r = some q → OutPoly .drl p q) ∧
      IsNormalForm OKind.drl.mo { g | ∃ f ∈ G, g = toMv p f } (toMv p f) (resMv p r)) tbr (nf tbr))
    (pt : Fin n → A) (hpt : ∀ f ∈ G, aeval pt (toMv p f) = 0) :
    (threshold us (lmb.length - (divIdx x (G.map F4.lead)).length) < (extras x (G.map F4.lead) lmb lmb.length).length →
      build p x us G lmb nf = .error .null) ∧
    ((extras x (G.map F4.lead) lmb lmb.length).length ≤ threshold us (lmb.length - (divIdx x (G.map F4.lead)).length) →
      ∃ M, build p x us G lmb nf = .ok M ∧ MatOk p x lmb (mval pt) M) := by
  have hS := h.stair hs hm hne
  have hlen : (divIdx x (G.map F4.lead)).length ≤ lmb.length := by
    rw [← hS.hits_total x]
    refine (List.length_filter_le _ _).trans ?_
    rw [List.length_range]
  have hlens := lenLoop G (fun i => (G.map F4.lead).getD i 0 x ≠ 0) (by
    have := hS.div_ne x
    rw [divIdx, List.length_map] at this
    exact this) G.length le_rfl
  have hD : (List.range G.length).filter (fun i => decide ((G.map F4.lead).getD i 0 x ≠ 0)) = divIdx x (G.map F4.lead) := by
    rw [divIdx, List.length_map]
  rw [hD] at hlens
  have hscan := scanLoop hS x lmb.length le_rfl
  constructor
  · intro hth
    simp only [build, hlens, hscan, bind, Except.bind]
    rw [if_neg (by omega), if_pos hth]
  · intro hth
    set E := extras x (G.map F4.lead) lmb lmb.length with hE
    set N := if E.length = 0 then [] else
        nf (E.map fun i => [(Function.update (lmb.getD i 0) x (lmb.getD i 0 x + 1), 1)]) with hN
    have hφ : ∀ f ∈ Ideal.span { g | ∃ f ∈ G, g = toMv p f }, aeval pt f = 0 := by
      intro f hf
      have : Ideal.span { g | ∃ f ∈ G, g = toMv p f } ≤ RingHom.ker (aeval (R := ZMod p) pt : MvPolynomial (Fin n) (ZMod p) →ₐ[ZMod p] A).toRingHom := by
        rw [Ideal.span_le]
        rintro _ ⟨f, hf, rfl⟩
        exact hpt f hf
      exact this hf
    have hNspec : List.Forall₂ (fun i r => (∀ q, r = some q → OutPoly .drl p q) ∧
        IsNormalForm OKind.drl.mo { g | ∃ f ∈ G, g = toMv p f } (toMv p [(lmb.getD i 0 + var x, 1)]) (resMv p r)) E N := by
      rw [hN]
      split_ifs with h0
      · rw [List.eq_nil_of_length_eq_zero h0]
        exact .nil
      · have := hnf (E.map fun i => [(Function.update (lmb.getD i 0) x (lmb.getD i 0 x + 1), 1)]) (by
          intro f hf
          obtain ⟨i, _, rfl⟩ := List.mem_map.mp hf
          refine ⟨by simp, ?_⟩
          intro t ht
          rw [List.mem_singleton] at ht
          subst ht
          exact hp.out.one_lt)
        rw [List.forall₂_map_left_iff] at this
        simpa only [update_eq] using this
    obtain ⟨s, hs1, I⟩ := buildLoop hS x p G N (fun i r => RowFor (p := p) (mval pt) lmb (mval pt (lmb.getD i 0 + var x)) r) (by
        intro i hi d hd he
        rw [List.length_map] at hd
        have hf := getD_mem (l := G) [] hd
        set f := G.getD d [] with hfd
        have hlead : F4.lead f = lmb.getD i 0 + var x := by
          rw [← he, List.getD_eq_getElem _ _ (by simpa using hd), List.getElem_map, hfd, List.getD_eq_getElem _ _ hd]
        obtain ⟨t, ht⟩ := (h.ok f hf).head
        rw [← hlead]
        have hsort := (h.ok f hf).sorted
        have hcoef := (h.ok f hf).coeff
        have hz := hpt f hf
        rw [aeval_toMv] at hz
        rw [ht] at hsort hcoef hz
        rw [List.map_cons, List.pairwise_cons] at hsort
        refine polyRow_spec OKind.drl.adm (mval pt) hp.out.pos lmb hs f (F4.lead f) t ht hsort.2 (fun s hs => h.tail_mem hm hf ht s hs)
          (fun s hs => hcoef s (List.mem_cons_of_mem _ hs)) ?_ ?_
        · intro hmem
          exact (hm _).mp hmem f hf le_rfl
        · simpa using hz) (by
        intro i t hti
        obtain ⟨r, hr, hout, hnorm⟩ : ∃ r, N[t]? = some r ∧ (∀ q, r = some q → OutPoly .drl p q) ∧
            IsNormalForm OKind.drl.mo { g | ∃ f ∈ G, g = toMv p f } (toMv p [(lmb.getD i 0 + var x, 1)]) (resMv p r) := by
          rw [← hE] at hti
          exact forall2_get hNspec hti
        have hval := hφ _ hnorm.1
        rw [map_sub, sub_eq_zero, aeval_toMv] at hval
        simp only [List.map_cons, List.map_nil, List.sum_cons, List.sum_nil, Nat.cast_one, one_smul, add_zero] at hval
        refine ⟨r, ?_⟩
        cases r with
        | none =>
          refine ⟨_, hr, rfl, by simp, ?_, ?_⟩
          · intro c hc
            obtain ⟨_, _, rfl⟩ := List.mem_map.mp hc
            exact hp.out.pos
          · rw [comb_zero, hval]
            simp [resMv]
        | some q =>
          have ho := hout q rfl
          obtain ⟨r, hr1, hr2⟩ := scanNf_spec OKind.drl.adm (mval pt) hp.out.pos lmb q.reverse hs (by
              rw [List.map_reverse, List.pairwise_reverse]
              exact ho.sorted) (by
              intro t ht
              rw [List.mem_reverse] at ht
              rw [hm]
              intro f hf hle
              have hne : toMv p f ≠ 0 := by
                intro h0
                have := (h.ok f hf).monic
                rw [h0, MonomialOrder.leadingCoeff_zero] at this
                exact zero_ne_one this
              refine hnorm.2 (fs t.1) ?_ (toMv p f) ⟨f, hf, rfl⟩ hne ?_
              · rw [mem_support_iff, resMv, toMv_coeff p q ho.sorted t ht]
                have := ho.coeff t ht
                intro h0
                rw [ZMod.natCast_eq_zero_iff] at h0
                exact absurd (Nat.le_of_dvd this.1 h0) (by omega)
              · rw [(h.ok f hf).degree]
                exact hle) (fun t ht => (ho.coeff t (List.mem_reverse.mp ht)).2)
          refine ⟨r, hr, hr1, ?_⟩
          rw [hval, resMv, aeval_toMv, ← List.sum_reverse, ← List.map_reverse]
          exact hr2) lmb.length le_rfl
    refine ⟨⟨lmb.length, s.triv, s.dense.map fun q => (q.1, q.2, dstOf q.2)⟩, ?_, rfl, I.triv, ?_, ?_⟩
    · simp only [build, hlens, hscan, bind, Except.bind]
      rw [if_neg (by omega), if_neg (by omega)]
      rw [← hE] at hs1
      simp only [← hN, hs1]
    · intro q hq
      obtain ⟨q', hq', rfl⟩ := List.mem_map.mp hq
      exact ⟨(I.dense q' hq').2, rfl⟩
    · simpa [List.map_map, Function.comp_def] using I.cover

end Matrix

end Verif.MulMatrix
