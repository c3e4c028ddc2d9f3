import Verif.FglmParam
import Verif.Props.Fglm
import Mathlib.FieldTheory.Separable
import Mathlib.Algebra.Algebra.Prod
import Mathlib.LinearAlgebra.Dimension.Constructions
import Mathlib.LinearAlgebra.Dimension.Finite
import Mathlib.Tactic.FinCases
import Mathlib.Algebra.DualNumber
import Mathlib.Algebra.Polynomial.FieldDivision

/-! C45, C52, C53: linear forms, Hankel systems and parametrizations. -/

namespace Verif.Props

open Polynomial Verif.Spec Verif.BM Verif.Hankel Verif.LinForms Verif.Fglm

/-! ### C45 -/

open Classical in
theorem rank_eq {n : ℕ} {K : Type*} (lml : ℕ) (P : ℕ → List ((Fin n → ℕ) × K)) (v : ℕ) :
    (Finset.univ.filter fun w : Fin n => w.val < v ∧ ∃ j, j < lml ∧ lead (P j) = var w).card = rank lml P v := by
  unfold rank LinVar
  congr!

open Classical in
/-- C45: `linvars` and `nlins` describe the linear forms of the basis: `linvars[k]` is the index plus one of the
element with leading monomial the variable `k`, zero if there is none, and `nlins` their number. -/
theorem C45_linvars {n : ℕ} {K : Type*} [Field K] {lml : ℕ} {P : ℕ → List ((Fin n → ℕ) × K)} (hP : Reduced lml P) :
    let lv := linVars n lml (fun i j => Orders.ext (lead (P i)) j)
    (∀ (k : Fin n) i, lv.1 k = i + 1 ↔ i < lml ∧ lead (P i) = var k) ∧
    (∀ k : Fin n, lv.1 k = 0 ↔ ∀ i, i < lml → lead (P i) ≠ var k) ∧
    lv.2 = (Finset.univ.filter fun k : Fin n => ∃ i, i < lml ∧ lead (P i) = var k).card := by
  refine ⟨fun k => (linVars_spec hP k).1, fun k => (linVars_spec hP k).2, ?_⟩
  refine (nlins_spec hP).trans ?_
  unfold rank
  congr 1
  ext k
  simp [LinVar]

open Classical in
/-- C45: `check_and_set_linear_poly` without elimination block: the row of the linear form with leading variable `v`,
which is the number of linear variables before `v`, holds the coefficients of the variables and the constant. -/
theorem C45_check {n : ℕ} {K : Type*} [Field K] {lml : ℕ} {P : ℕ → List ((Fin n → ℕ) × K)} (hP : Reduced lml P)
    (ev0 : ℕ → ℕ) {v : Fin n} {i : ℕ} (hi : i < lml) (hv : lead (P i) = var v) :
    let L := rows slotCheck n (fun j => (P j).map fun t => (Orders.setEv n 0 (Orders.ext t.1) ev0, t.2))
      (linVars n lml fun i j => Orders.ext (lead (P i)) j).1
    let r := (Finset.univ.filter fun w : Fin n => w.val < v ∧ ∃ j, j < lml ∧ lead (P j) = var w).card
    (∀ k : Fin n, L (r * (n + 1) + k) = coeffAt (P i) (var k)) ∧ L (r * (n + 1) + n) = coeffAt (P i) 0 := by
  have key := rows_spec hP (lay := fun u => Orders.setEv n 0 (Orders.ext u) ev0) (slot := slotCheck)
    (fun u hu k => slotCheck_spec u (by omega) ev0 k) hi hv
  refine ⟨fun k => ?_, ?_⟩ <;> rw [rank_eq]
  · have := key (var k) (Or.inl ⟨k, rfl⟩)
    rw [pos_var] at this
    exact this
  · have := key 0 (Or.inr rfl)
    rw [pos_zero] at this
    exact this

open Classical in
/-- C45: the same for `set_linear_poly`, for every storage of the exponent vectors (with and without elimination
block). -/
theorem C45_set {n : ℕ} {K : Type*} [Field K] {lml : ℕ} {P : ℕ → List ((Fin n → ℕ) × K)} (hP : Reduced lml P)
    (nev : ℕ) (hnev : nev ≤ n) (ev0 : ℕ → ℕ) {v : Fin n} {i : ℕ} (hi : i < lml) (hv : lead (P i) = var v) :
    let L := rows (slotSet (Orders.evl n nev) (Orders.ebl nev)) n
      (fun j => (P j).map fun t => (Orders.setEv n nev (Orders.ext t.1) ev0, t.2))
      (linVars n lml fun i j => Orders.ext (lead (P i)) j).1
    let r := (Finset.univ.filter fun w : Fin n => w.val < v ∧ ∃ j, j < lml ∧ lead (P j) = var w).card
    (∀ k : Fin n, L (r * (n + 1) + k) = coeffAt (P i) (var k)) ∧ L (r * (n + 1) + n) = coeffAt (P i) 0 := by
  have key := rows_spec hP (lay := fun u => Orders.setEv n nev (Orders.ext u) ev0)
    (slot := slotSet (Orders.evl n nev) (Orders.ebl nev)) (fun u hu k => slotSet_spec nev hnev u (by omega) ev0 k) hi hv
  refine ⟨fun k => ?_, ?_⟩ <;> rw [rank_eq]
  · have := key (var k) (Or.inl ⟨k, rfl⟩)
    rw [pos_var] at this
    exact this
  · have := key 0 (Or.inr rfl)
    rw [pos_zero] at this
    exact this

/-- The basis `x0 + 2 x2 + 5`, `x1 + 3 x2`, `x2^2 + x2` has linear forms of different lengths. -/
def exB : ℕ → List ((Fin 3 → ℕ) × ℚ)
  | 0 => [(![0, 0, 2], 1), (![0, 0, 1], 1)]
  | 1 => [(![0, 1, 0], 1), (![0, 0, 1], 3)]
  | _ => [(![1, 0, 0], 1), (![0, 0, 1], 2), (![0, 0, 0], 5)]

theorem exB_reduced : Reduced 3 exB where
  ne := by
    intro i hi
    interval_cases i <;> simp [exB]
  sorted := by
    intro i hi
    interval_cases i <;> simp [exB, Drl, DrlOn, Fin.sum_univ_three, Fin.exists_fin_succ, Fin.forall_fin_succ]
  red := by
    intro i j hi hj hne t ht s hs
    interval_cases i <;> interval_cases j <;> simp [exB] at ht hs hne <;>
      rcases ht with rfl | rfl | rfl <;> subst hs <;> simp [Pi.le_def, Fin.forall_fin_succ]

/-- The rows of the example: `(1, 0, 2, 5)` and `(0, 1, 3, 0)`. -/
example : ∃ L : ℕ → ℚ, L = rows slotCheck 3 (fun j => (exB j).map fun t => (Orders.setEv 3 0 (Orders.ext t.1) (fun _ => 0), t.2))
      (linVars 3 3 fun i j => Orders.ext (lead (exB i)) j).1 ∧
    (List.range 8).map L = [1, 0, 2, 5, 0, 1, 3, 0] := by
  refine ⟨_, rfl, ?_⟩
  decide +kernel

/-- C45, limit of `check_and_set_linear_poly`: with an elimination block it reads the wrong entries of the exponent
vectors.  For `x2 + 5` in three variables and a block of length 1 the coefficient of `x2` is written at the
position of `x1`. -/
theorem C45_check_elimination :
    let P : ℕ → List ((Fin 3 → ℕ) × ℚ) := fun _ => [(![0, 0, 1], 1), (![0, 0, 0], 5)]
    (List.range 4).map (rows slotCheck 3 (fun j => (P j).map fun t => (Orders.setEv 3 1 (Orders.ext t.1) (fun _ => 0), t.2))
      (linVars 3 1 fun i j => Orders.ext (lead (P i)) j).1) = [0, 1, 0, 5] := by
  decide +kernel

/-! ### C52 -/

/-- C52: outcome of the inversion of a Hankel matrix with entries `u (i + j)`, `i, j < d`.  The matrix is reported as
singular exactly if it is (and `d > 1`; for the zero matrix of size one the code reads outside an array).  It is
accepted only if it is regular.  The fourth outcome is the case of a regular matrix for which the last entry of the
first column of the inverse is zero; its code (fglm_core.c 256-354) reads outside an array (`C52_other_reads_outside`). -/
theorem C52_outcome {K : Type*} [Field K] {hg : K[X] → K[X] → HM K} (hhg : HgcdOk hg) {pts : List K} {u : ℕ → K} {d : ℕ}
    (hd : 0 < d) (hl : 2 * d - 1 ≤ pts.length) (hu : ∀ i, i < 2 * d - 1 → pts.getD i 0 = u i) :
    (invert hg pts d = .singular ↔ 1 < d ∧ ¬ Regular u d) ∧
    (invert hg pts d = .ub ↔ d = 1 ∧ ¬ Regular u d) ∧
    (invert hg pts d = .other ↔ ∃ x : ℕ → K, Regular u d ∧ (∀ t, t < d → hmul u d x t = if t = 0 then 1 else 0) ∧ x (d - 1) = 0) ∧
    ((∃ Z1 Z2, invert hg pts d = .ok Z1 Z2) ↔
      ∃ x : ℕ → K, Regular u d ∧ (∀ t, t < d → hmul u d x t = if t = 0 then 1 else 0) ∧ x (d - 1) ≠ 0) := by
  have h := invert_spec hhg hd hl hu
  have huniq : Regular u d → ∀ x y : ℕ → K, (∀ t, t < d → hmul u d x t = hmul u d y t) → ∀ i, i < d → x i = y i := by
    intro hr x y hxy i hi
    have := hr (fun i => x i + (-1) * y i) (fun t ht => by
      rw [hmul_add _ _ x (fun i => (-1) * y i), hmul_smul, hxy t ht]
      ring) i hi
    linear_combination this
  generalize invert hg pts d = o at h
  cases o with
  | singular =>
    have h : 1 < d ∧ ¬ Regular u d := h
    refine ⟨by simp [h], by simp; omega, ⟨by simp, ?_⟩, ⟨by simp, ?_⟩⟩
    · rintro ⟨x, hr, -⟩
      exact absurd hr h.2
    · rintro ⟨x, hr, -⟩
      exact absurd hr h.2
  | ub =>
    obtain ⟨h1, h2⟩ : d = 1 ∧ u 0 = 0 := h
    have hnr : ¬ Regular u d := by
      intro hr
      have := hr (fun _ => 1) (fun t ht => by
        rw [h1] at ht
        rw [h1, hmul, Finset.sum_range_one, show t + 0 = 0 by omega, h2, zero_mul]) 0 hd
      exact one_ne_zero this
    refine ⟨by simp; omega, by simp [h1]; exact h1 ▸ hnr, ⟨by simp, ?_⟩, ⟨by simp, ?_⟩⟩
    · rintro ⟨x, hr, -⟩
      exact absurd hr hnr
    · rintro ⟨x, hr, -⟩
      exact absurd hr hnr
  | other =>
    obtain ⟨hr, x, hx, hx0⟩ := h
    refine ⟨by simp [hr], by simp [hr], ⟨fun _ => ⟨x, hr, hx, hx0⟩, by simp⟩, ⟨by simp, ?_⟩⟩
    rintro ⟨y, -, hy, hy0⟩
    exact absurd (hx0 ▸ huniq hr y x (fun t ht => by rw [hx t ht, hy t ht]) (d - 1) (by omega)) hy0
  | ok Z1 Z2 =>
    obtain ⟨hr, -, -, hx, -, h6, h7⟩ := h
    have hx0 : xv Z1 d (d - 1) ≠ 0 := by
      simp only [xv]
      have : d - 1 - (d - 1) = 0 := by omega
      simpa [this, hd] using h7
    refine ⟨by simp [hr], by simp [hr], ⟨by simp, ?_⟩, ⟨fun _ => ⟨_, hr, hx, hx0⟩, fun _ => ⟨Z1, Z2, rfl⟩⟩⟩
    rintro ⟨y, -, hy, hy0⟩
    exact absurd (hy0 ▸ huniq hr _ y (fun t ht => by rw [hx t ht, hy t ht]) (d - 1) (by omega)) hx0

/-- C52: with the `2 * d` points that are computed, the branch for a zero last entry of the first column of the inverse reads outside the array of the points. -/
theorem C52_other_reads_outside {K : Type*} [Field K] {pts : List K} {d : ℕ} (hl : pts.length = 2 * d) : otherRt pts d = none := by
  unfold otherRt
  have h : ∀ (l : List ℕ) (f : ℕ → Option K) (i : ℕ), i ∈ l → f i = none → l.mapM f = none := by
    intro l f i hi hf
    induction l with
    | nil => simp at hi
    | cons a l ih =>
      rw [List.mapM_cons]
      rcases List.mem_cons.mp hi with rfl | hi
      · rw [hf]; rfl
      · rw [ih hi]
        cases f a <;> rfl
  refine h _ _ (2 * d) (List.mem_range.mpr (by omega)) (List.getElem?_eq_none ?_)
  rw [List.length_append, List.length_reverse, List.length_take, List.length_drop]
  omega

/-- For the points 1, 0, 1, 0 (Hankel matrix of size 2: the identity) this branch is taken. -/
example (hg : ℚ[X] → ℚ[X] → HM ℚ) (hhg : HgcdOk hg) : invert hg [1, 0, 1, 0] 2 = .other ∧ otherRt [(1 : ℚ), 0, 1, 0] 2 = none := by
  refine ⟨?_, C52_other_reads_outside rfl⟩
  rw [(C52_outcome hhg (u := fun i => if i % 2 = 0 then (1 : ℚ) else 0) (by norm_num) (by simp) (by intro i hi; interval_cases i <;> norm_num)).2.2.1]
  refine ⟨fun i => if i = 0 then 1 else 0, ?_, ?_, by norm_num⟩
  · intro v hv i hi
    have h0 := hv 0 (by norm_num)
    have h1 := hv 1 (by norm_num)
    simp [hmul, Finset.sum_range_succ] at h0 h1
    interval_cases i <;> assumption
  · intro t ht
    interval_cases t <;> simp [hmul, Finset.sum_range_succ]

/-- C52: after a successful inversion, for every right hand side the polynomial returned by `solve_hankel`, reversed as
the caller does, holds the coordinates of the unique solution. -/
theorem C52_solve {K : Type*} [Field K] {hg : K[X] → K[X] → HM K} (hhg : HgcdOk hg) {pts : List K} {u : ℕ → K} {d : ℕ}
    (hd : 0 < d) (hl : 2 * d - 1 ≤ pts.length) (hu : ∀ i, i < 2 * d - 1 → pts.getD i 0 = u i) {Z1 Z2 : K[X]}
    (hok : invert hg pts d = .ok Z1 Z2) (w x : ℕ → K) :
    (∀ t, t < d → hmul u d x t = w t) ↔ ∀ i, i < d → x i = (mirror (solve Z1 Z2 d w) d).coeff i := by
  have h := invert_spec hhg hd hl hu
  rw [hok] at h
  have hs := solve_spec hd h w
  constructor
  · intro hx i hi
    have := h.1 (fun i => x i + (-1) * (mirror (solve Z1 Z2 d w) d).coeff i) (fun t ht => by
      rw [hmul_add _ _ x (fun i => (-1) * (mirror (solve Z1 Z2 d w) d).coeff i), hmul_smul, hx t ht, hs t ht]
      ring) i hi
    linear_combination this
  · intro hx t ht
    rw [← hs t ht]
    unfold hmul
    refine Finset.sum_congr rfl fun i hi => ?_
    rw [hx i (Finset.mem_range.mp hi)]

/-- The Hankel matrix of `0, 1, 1` is inverted whatever the half-gcd routine, with `0, 1, 1` as points. -/
example (hg : ℚ[X] → ℚ[X] → HM ℚ) (hhg : HgcdOk hg) : ∃ Z1 Z2, invert hg [0, 1, 1, 2] 2 = .ok Z1 Z2 := by
  rw [(C52_outcome hhg (u := fibQ) (by norm_num) (by simp) (by intro i hi; interval_cases i <;> norm_num [fibQ])).2.2.2]
  refine ⟨fun i => if i = 0 then -1 else 1, ?_, ?_, by norm_num⟩
  · intro v hv i hi
    have h0 := hv 0 (by norm_num)
    have h1 := hv 1 (by norm_num)
    simp [hmul, Finset.sum_range_succ, fibQ] at h0 h1
    interval_cases i
    · linarith
    · linarith
  · intro t ht
    interval_cases t <;> norm_num [hmul, Finset.sum_range_succ, fibQ]

/-! ### C53 -/

/-- C53: parametrization in shape position.  Given are a reduced Groebner basis `P` (monic), an algebra `A` in which its
elements vanish at `x`, whose basis are the values of the monomials `mb` not divisible by a leading monomial (in increasing
order, as computed by `monomial_basis`, C24), and a matrix of the multiplication by the last variable.  Whatever the
random vector, if the square-free part of the computed minimal polynomial has degree the dimension, then a returned
parametrization is correct: the eliminating polynomial is square-free and the minimal polynomial of the last variable,
and each other variable is `-coords[k](x_n)` in `A`.  Nothing is returned only in the unmodelled case of the
inversion. -/
theorem C53_shape {K A : Type*} [Field K] [CommRing A] [Algebra K A] {n lml : ℕ} {P : ℕ → List ((Fin n → ℕ) × K)}
    (hP : Reduced lml P) (hmon : ∀ i, i < lml → ∀ s, (P i).head? = some s → s.2 = 1) {last : Fin n}
    (hlast : last.val = n - 1) {x : Fin n → A} (hx : ∀ i, i < lml → evalAt (P i) x = 0) {mb : List (Fin n → ℕ)}
    (hs : mb.Pairwise Drl) (hmb : ∀ m, m ∈ mb ↔ ∀ i, i < lml → ¬ lead (P i) ≤ m) (hne : mb ≠ [])
    (B : Module.Basis (Fin mb.length) K A) (hB : ∀ i, B i = ∏ j, x j ^ (mb.getD i 0) j) {M : Mat K}
    (hM : IsMulMat M (fun i => ∏ j, x j ^ (mb.getD i 0) j) (x last)) (hnc : M.ncols = mb.length) (ev0 : ℕ → ℕ)
    (vecinit vvec : ℕ → K) {hg : K[X] → K[X] → HM K} (hhg : HgcdOk hg) {sqf : List (K[X] × ℕ)}
    (hsqf : SqfOk (minPoly hg (M.pts vecinit vvec) mb.length) sqf) :
    let elim := sqfPart (minPoly hg (M.pts vecinit vvec) mb.length) mb.length sqf
    let lv := linVars n lml (fun i j => Orders.ext (lead (P i)) j)
    let lineqs := rows slotCheck n (fun j => (P j).map fun t => (Orders.setEv n 0 (Orders.ext t.1) ev0, t.2)) lv.1
    let inv := invert hg (M.pts vecinit vvec) mb.length
    let res := params inv mb.length (M.res vecinit vvec) lv.2 lv.1 lineqs n elim
    elim.natDegree = mb.length →
    (res = none ↔ lv.2 ≠ n ∧ inv = .other) ∧
    ∀ r, res = some r → r.1 = minpoly K (x last) ∧ Squarefree r.1 ∧ ∀ k : Fin n, k < last → x k + aeval (x last) (r.2 k) = 0 := by
  intro elim lv lineqs inv res hdim
  have h0 : 0 ∈ mb := by
    obtain ⟨m, hm⟩ := List.exists_mem_of_ne_nil mb hne
    refine (hmb 0).mpr fun i hi hle => (hmb m).mp hm i hi (hle.trans ?_)
    intro j
    exact Nat.zero_le _
  exact shape hP hmon hlast hx hs hmb h0 B hB hM hnc (lineqs := lineqs) (fun i v hi hv u hu =>
    rows_spec hP (lay := fun u => Orders.setEv n 0 (Orders.ext u) ev0) (slot := slotCheck)
      (fun u hu k => slotCheck_spec u (by omega) ev0 k) hi hv u hu) vecinit vvec hhg hsqf rfl hdim

/-! A concrete case: `x0 - x1`, `x1^2 - 1` with the algebra `ℚ × ℚ`. -/

def exP : ℕ → List ((Fin 2 → ℕ) × ℚ)
  | 0 => [(![0, 2], 1), (![0, 0], -1)]
  | _ => [(![1, 0], 1), (![0, 1], -1)]

theorem exP_reduced : Reduced 2 exP where
  ne := by
    intro i hi
    interval_cases i <;> simp [exP]
  sorted := by
    intro i hi
    interval_cases i <;> simp [exP, Drl, DrlOn, Fin.sum_univ_two, Fin.exists_fin_succ, Fin.forall_fin_succ]
  red := by
    intro i j hi hj hne t ht s hs
    interval_cases i <;> interval_cases j <;> simp [exP] at ht hs hne <;>
      rcases ht with rfl | rfl <;> subst hs <;> simp [Pi.le_def, Fin.forall_fin_succ]

def exX : Fin 2 → ℚ × ℚ := fun _ => (1, -1)

/-- Multiplication by `x1` exchanges `1` and `x1`; the second row is stored as a dense row. -/
def exM : Mat ℚ := { ncols := 2, triv := [(0, 1)], dense := [(1, fun k => if k = 0 then 1 else 0)] }

def exMb : List (Fin 2 → ℕ) := [![0, 0], ![0, 1]]

noncomputable def exBasis : Module.Basis (_root_.Fin 2) ℚ (ℚ × ℚ) :=
  basisOfLinearIndependentOfCardEqFinrank (b := fun i : _root_.Fin 2 => ∏ j, exX j ^ (exMb.getD i 0) j)
    (by
      rw [Fintype.linearIndependent_iff]
      intro g hg
      simp [exX, exMb, Fin.sum_univ_two, Prod.ext_iff] at hg
      obtain ⟨h1, h2⟩ := hg
      intro i
      fin_cases i
      · show g 0 = 0
        linarith
      · show g 1 = 0
        linarith)
    (by simp)

theorem exBasis_apply (i : _root_.Fin 2) : exBasis i = ∏ j, exX j ^ (exMb.getD i 0) j := by
  rw [exBasis, coe_basisOfLinearIndependentOfCardEqFinrank]

/-- The sequence `1, 2, 1, 2, ..` of the initial vector `(1, 2)`. -/
def exSeq (i : ℕ) : ℚ := if i % 2 = 0 then 1 else 2

theorem exV_degree : (X ^ 2 - 1 : ℚ[X]).natDegree = 2 := by compute_degree!

theorem exV_monic : (X ^ 2 - 1 : ℚ[X]).Monic := by
  have := monic_X_pow_sub_C (1 : ℚ) (n := 2) (by norm_num)
  simpa using this

theorem exSeq_annih : Annihilates (X ^ 2 - 1 : ℚ[X]) exSeq := by
  intro i
  rw [exV_degree]
  have h : exSeq (i + 2) = exSeq i := by simp [exSeq]
  simp [Finset.sum_range_succ, coeff_one, h]

theorem exSeq_min : IsMinPoly (X ^ 2 - 1 : ℚ[X]) exSeq := by
  refine ⟨exV_monic, exSeq_annih, fun g hg => ?_⟩
  have hm := exV_monic
  rw [← modByMonic_eq_zero_iff_dvd hm]
  set r := g %ₘ (X ^ 2 - 1) with hr
  have hann : act r exSeq = 0 := by
    have h1 := modByMonic_add_div g (X ^ 2 - 1 : ℚ[X])
    have h2 := (annihilates_iff _ _).mp hg
    rw [← h1, act_add, mul_comm, act_mul, (annihilates_iff _ _).mp exSeq_annih, map_zero, add_zero] at h2
    exact h2
  have hd : r.natDegree < 2 := by
    have := natDegree_modByMonic_lt g hm (by
      intro h1
      have := exV_degree
      rw [h1, natDegree_one] at this
      omega)
    rwa [exV_degree] at this
  have h0 := congrFun hann 0
  have h1 := congrFun hann 1
  rw [act_apply r _ _ hd] at h0 h1
  simp [Finset.sum_range_succ, exSeq] at h0 h1
  ext m
  rw [coeff_zero]
  rcases Nat.lt_or_ge m 2 with hm2 | hm2
  · interval_cases m <;> linarith
  · exact coeff_eq_zero_of_natDegree_lt (by omega)

theorem exM_pts : exM.pts (fun i => if i = 0 then 1 else 2) (fun _ => 0) = [1, 2, 1, 2] := by
  simp [Mat.pts, exM, Mat.res, Mat.iter, Mat.mulVec, List.range_succ, Finset.sum_range_succ]

/-- All hypotheses of `C53_shape` hold, and a parametrization is returned. -/
example (hg : ℚ[X] → ℚ[X] → HM ℚ) (hhg : HgcdOk hg) :
    ∃ sqf, SqfOk (minPoly hg (exM.pts (fun i => if i = 0 then 1 else 2) fun _ => 0) exMb.length) sqf ∧
      ∃ r : ℚ[X] × (ℕ → ℚ[X]), r.1 = minpoly ℚ (exX 1) ∧ exX 0 + aeval (exX 1) (r.2 0) = 0 ∧
        params (invert hg (exM.pts (fun i => if i = 0 then 1 else 2) fun _ => 0) 2) 2
          (exM.res (fun i => if i = 0 then 1 else 2) fun _ => 0) 1 (linVars 2 2 fun i j => Orders.ext (lead (exP i)) j).1
          (rows slotCheck 2 (fun j => (exP j).map fun t => (Orders.setEv 2 0 (Orders.ext t.1) (fun _ => 0), t.2))
            (linVars 2 2 fun i j => Orders.ext (lead (exP i)) j).1) 2
          (sqfPart (minPoly hg (exM.pts (fun i => if i = 0 then 1 else 2) fun _ => 0) 2) 2 sqf) = some r := by
  have hpts : ∀ i, i < 2 * 2 → [(1 : ℚ), 2, 1, 2].getD i 0 = exSeq i := by
    intro i hi
    interval_cases i <;> norm_num [exSeq]
  have hmin : minPoly hg (exM.pts (fun i => if i = 0 then 1 else 2) fun _ => 0) 2 = X ^ 2 - 1 := by
    rw [exM_pts]
    refine C25_unique ((C25_compute_minpoly hhg exSeq 2 ⟨X ^ 2 - 1, exV_monic.ne_zero, exV_degree.le, exSeq_annih⟩ _
      (by simp) hpts).1 ?_) exSeq_min
    intro h
    have := congrFun h 0
    simp [exSeq] at this
  have hsq : Squarefree (X ^ 2 - 1 : ℚ[X]) := by
    apply Separable.squarefree
    refine ⟨-1, C (1 / 2) * X, ?_⟩
    simp only [derivative_sub, derivative_X_pow, derivative_one, sub_zero]
    have : (C (1 / 2) * C 2 : ℚ[X]) = 1 := by
      rw [← C_mul]
      norm_num
    simp only [Nat.cast_ofNat, map_ofNat] at this ⊢
    linear_combination X ^ 2 * this
  have hsqf : SqfOk (X ^ 2 - 1 : ℚ[X]) [(X ^ 2 - 1, 1)] :=
    { prod := by simp
      pos := by simp
      monic := by simp [exV_monic]
      sqf := by simpa using hsq
      coprime := by simp }
  refine ⟨[(X ^ 2 - 1, 1)], ?_, ?_⟩
  · show SqfOk (minPoly hg _ 2) _
    rw [hmin]
    exact hsqf
  · have hl2 : exMb.length = 2 := rfl
    have key := C53_shape exP_reduced (by
        intro i hi s hs
        interval_cases i <;> simp [exP] at hs <;> rw [← hs]) (last := 1) rfl (x := exX) (by
        intro i hi
        interval_cases i <;> simp [exP, evalAt, exX]) (mb := exMb) (by
        simp [exMb, Drl, DrlOn, Fin.sum_univ_two]) (by
        intro m
        constructor
        · intro hm i hi
          simp [exMb] at hm
          interval_cases i <;> rcases hm with rfl | rfl <;> simp [exP, lead, Pi.le_def, Fin.forall_fin_succ]
        · intro h
          have h0 := h 0 (by norm_num)
          have h1 := h 1 (by norm_num)
          simp [exP, lead, Pi.le_def, Fin.forall_fin_succ] at h0 h1
          simp only [exMb, List.mem_cons, List.not_mem_nil, or_false]
          have e : ∀ c, m 1 = c → m = ![0, c] := by
            intro c hc
            funext j
            fin_cases j
            · simpa using h1
            · simpa using hc
          rcases Nat.lt_or_ge (m 1) 1 with h2 | h2
          · exact Or.inl (e 0 (by omega))
          · exact Or.inr (e 1 (by omega))) (by simp [exMb]) exBasis (by
        intro i
        exact exBasis_apply i) (M := exM)
        { triv := by
            intro q hq
            simp [exM] at hq
            subst hq
            simp [exM, exX, exMb]
          dense := by
            intro q hq
            simp [exM] at hq
            subst hq
            simp [exM, exX, exMb, Finset.sum_range_succ]
          cover := by
            intro i hi
            simp [exM] at hi ⊢
            omega } rfl (fun _ => 0) (fun i => if i = 0 then 1 else 2) (fun _ => 0) hhg (sqf := [(X ^ 2 - 1, 1)])
        (by rw [hl2, hmin]; exact hsqf) (by
        rw [hl2, hmin]
        unfold sqfPart
        split_ifs
        · exact exV_degree
        · simpa using exV_degree)
    have hn1 : (linVars 2 2 fun i j => Orders.ext (lead (exP i)) j).2 = 1 := by decide +kernel
    rw [hl2, hn1] at key
    obtain ⟨k1, k2⟩ := key
    have hok := (C52_outcome hhg (u := exSeq) (pts := [1, 2, 1, 2]) (d := 2) (by norm_num) (by simp) (fun i hi => hpts i (by omega))).2.2.2.mpr (by
      refine ⟨fun i => if i = 0 then -1 / 3 else 2 / 3, ?_, ?_, by norm_num⟩
      · intro v hv i hi
        have h0 := hv 0 (by norm_num)
        have h1 := hv 1 (by norm_num)
        simp [hmul, Finset.sum_range_succ, exSeq] at h0 h1
        interval_cases i <;> linarith
      · intro t ht
        interval_cases t <;> norm_num [hmul, Finset.sum_range_succ, exSeq])
    obtain ⟨Z1, Z2, hok⟩ := hok
    rw [← exM_pts] at hok
    obtain ⟨r, hr⟩ := Option.ne_none_iff_exists'.mp (fun hc => by
      have := (k1.mp hc).2
      rw [hok] at this
      cases this)
    obtain ⟨r1, -, r2⟩ := k2 r hr
    exact ⟨r, r1, r2 0 (by decide), hr⟩

/-! ### C53 outside shape position -/

/-- C53: outside shape position.  `V` is the minimal polynomial of the scalar sequence and annihilates `x` in `A`, `e` its
square-free part, `V = e * t`.  The table polynomial is invertible modulo `e`, and the coordinate computed for `a` is
`-P`, where `P` is the only polynomial of degree below `e` for which `t(x) * (a - P(x))` is zero for the linear form
and all its shifts.  If `a` is `Q(x)` up to a nilpotent element that `t(x)` kills, then `-P` has the right value at
every point of `A` in every field. -/
theorem C53_table {K A : Type*} [Field K] [CommRing A] [Algebra K A] {xg : K[X] → K[X] → K[X] × K[X] × K[X]}
    (hxg : XgcdOk xg) {V e t : K[X]} {l : A →ₗ[K] K} {x : A} (hV : IsMinPoly V fun i => l (x ^ i))
    (hx : aeval x V = 0) (hVe : V = e * t) (het : ∃ m, V ∣ e ^ m) :
    ∃ Z2, invTable xg e V (fun i => l (x ^ i)) = some Z2 ∧ ∀ a : A,
      let P := -coordTable e V Z2 fun i => l (x ^ i * a)
      P.degree < e.degree ∧
      (∀ P' : K[X], (∀ i, l (x ^ i * (aeval x t * (a - aeval x P'))) = 0) ↔ e ∣ P' - P) ∧
      ((∃ Q : K[X], IsNilpotent (a - aeval x Q) ∧ aeval x t * (a - aeval x Q) = 0) →
        ∀ (L : Type) [Field L] [Algebra K L] (φ : A →ₐ[K] L), φ a = aeval (φ x) P) := by
  have e1 : (fun i => l (x ^ i)) = lseq l x 1 := by
    funext i
    simp [lseq]
  rw [e1] at hV ⊢
  obtain ⟨Z2, h1, h2⟩ := coordTable_spec hxg hV hx hVe
  refine ⟨Z2, h1, fun a => ?_⟩
  intro P
  obtain ⟨h3, h4⟩ := h2 a P rfl
  have h5 : ∀ P' : K[X], (∀ i, l (x ^ i * (aeval x t * (a - aeval x P'))) = 0) ↔ e ∣ P' - P := by
    intro P'
    rw [← h4 P', funext_iff]
    rfl
  refine ⟨h3, h5, ?_⟩
  rintro ⟨Q, hn, hQ⟩ L _ _ φ
  obtain ⟨q, hq⟩ := (h5 Q).mp (fun i => by rw [hQ, mul_zero, map_zero])
  obtain ⟨m, r, hm⟩ := het
  have h6 : aeval (φ x) e = 0 := by
    have h7 : aeval (φ x) V = 0 := by rw [aeval_algHom_apply, hx, map_zero]
    have h8 : aeval (φ x) (e ^ m) = 0 := by rw [hm, map_mul, h7, zero_mul]
    rw [map_pow] at h8
    exact eq_zero_of_pow_eq_zero h8
  have h9 : φ a = aeval (φ x) Q := by
    have h10 := (hn.map φ).eq_zero
    rw [map_sub, ← aeval_algHom_apply, sub_eq_zero] at h10
    exact h10
  have h11 : aeval (φ x) (Q - P) = 0 := by rw [hq, map_mul, h6, zero_mul]
  rw [map_sub, sub_eq_zero] at h11
  rw [h9, h11]

/-- C53: the verification of a coordinate by the column of its square: for every multiplier `lam` for which the
table polynomial is invertible, the check accepts exactly if `t(x) * (a^2 - P(x)^2)` is zero for the linear form and
its shifts. -/
theorem C53_verify {K A : Type*} [Field K] [CommRing A] [Algebra K A] {xg : K[X] → K[X] → K[X] × K[X] × K[X]}
    (hxg : XgcdOk xg) {V e t : K[X]} {l : A →ₗ[K] K} {x : A} (hV : IsMinPoly V fun i => l (x ^ i))
    (hx : aeval x V = 0) (hVe : V = e * t) {Z2 : K[X]} (hZ : invTable xg e V (fun i => l (x ^ i)) = some Z2) (a : A)
    {lam : K} (hcop : IsCoprime e (tablePoly V fun i => l (x ^ i * a) + lam * l (x ^ i))) :
    let coord := coordTable e V Z2 fun i => l (x ^ i * a)
    verify xg e V coord lam (fun i => l (x ^ i)) (fun i => l (x ^ i * a)) (fun i => l (x ^ i * (a * a))) ↔
      ∀ i, l (x ^ i * (aeval x t * (a * a - aeval x coord * aeval x coord))) = 0 := by
  have e1 : (fun i => l (x ^ i)) = lseq l x 1 := by
    funext i
    simp [lseq]
  intro coord
  have e2 : (fun i => l (x ^ i * a) + lam * l (x ^ i)) = fun i => lseq l x a i + lam * lseq l x 1 i := by
    funext i
    simp [lseq]
  rw [e2] at hcop
  rw [e1] at hV hZ ⊢
  obtain ⟨Z2', h1, h2⟩ := coordTable_spec hxg hV hx hVe
  rw [hZ] at h1
  cases h1
  obtain ⟨h3, h4⟩ := h2 a (-coord) rfl
  have := verify_spec hxg hV hx hVe h3 ((h4 (-coord)).mpr (by simp)) hcop
  rw [neg_neg] at this
  refine this.trans ?_
  rw [funext_iff]
  simp [lseq]

/-- An extended gcd as assumed exists. -/
theorem xgcdOk_exists (K : Type*) [Field K] : ∃ xg : K[X] → K[X] → K[X] × K[X] × K[X], XgcdOk xg := by
  classical
  let c : K[X] → K[X] := fun g => if g = 0 then 1 else C (g.leadingCoeff)⁻¹
  have hc : ∀ g, IsUnit (c g) := by
    intro g
    simp only [c]
    split_ifs with h
    · exact isUnit_one
    · exact isUnit_C.mpr (isUnit_iff_ne_zero.mpr (inv_ne_zero (leadingCoeff_ne_zero.mpr h)))
  refine ⟨fun a b => let g := EuclideanDomain.gcd a b
    (c g * g, c g * EuclideanDomain.gcdA a b, c g * EuclideanDomain.gcdB a b), ?_, ?_, ?_, ?_⟩
  · intro a b
    simp only
    rw [EuclideanDomain.gcd_eq_gcd_ab a b]
    generalize c _ = u
    ring
  · intro a b
    exact (hc _).mul_left_dvd.mpr (EuclideanDomain.gcd_dvd_left a b)
  · intro a b
    exact (hc _).mul_left_dvd.mpr (EuclideanDomain.gcd_dvd_right a b)
  · intro a b h
    have h0 : EuclideanDomain.gcd a b ≠ 0 := by
      intro h1
      rw [EuclideanDomain.gcd_eq_zero_iff] at h1
      tauto
    simp only [c, if_neg h0]
    rw [mul_comm]
    exact monic_mul_leadingCoeff_inv h0

/-- The linear form `u + v ε ↦ u + v` on the dual numbers. -/
def exL : DualNumber ℚ →ₗ[ℚ] ℚ where
  toFun z := z.fst + z.snd
  map_add' a b := by
    simp only [TrivSqZeroExt.fst_add, TrivSqZeroExt.snd_add]
    ring
  map_smul' c a := by
    simp only [TrivSqZeroExt.fst_smul, TrivSqZeroExt.snd_smul, smul_eq_mul, RingHom.id_apply]
    ring

theorem exEps_pow (i : ℕ) (a : DualNumber ℚ) :
    exL (DualNumber.eps ^ i * a) = if i = 0 then a.fst + a.snd else if i = 1 then a.fst else 0 := by
  match i with
  | 0 => simp [exL]
  | 1 => simp [exL]
  | i + 2 =>
    have : (DualNumber.eps : DualNumber ℚ) ^ (i + 2) = 0 := by
      rw [pow_succ, pow_succ, mul_assoc, DualNumber.eps_mul_eps, mul_zero]
    simp [this]

theorem exEps_min : IsMinPoly (X ^ 2 : ℚ[X]) fun i => exL (DualNumber.eps ^ i) := by
  have hu : (fun i => exL (DualNumber.eps ^ i)) = fun i : ℕ => if i = 0 then (1 : ℚ) else if i = 1 then 1 else 0 := by
    funext i
    have := exEps_pow i 1
    rw [mul_one] at this
    rw [this]
    simp
  rw [hu]
  have hm : (X ^ 2 : ℚ[X]).Monic := monic_X_pow 2
  have hann : Annihilates (X ^ 2 : ℚ[X]) fun i : ℕ => if i = 0 then (1 : ℚ) else if i = 1 then 1 else 0 := by
    intro i
    simp [Finset.sum_range_succ, coeff_X_pow]
  refine ⟨hm, hann, fun g hg => ?_⟩
  rw [X_pow_dvd_iff]
  have h := (annihilates_iff _ _).mp hg
  have h0 := congrFun h 0
  have h1 := congrFun h 1
  rw [act_apply g _ _ (show g.natDegree < g.natDegree + 2 by omega)] at h0 h1
  rw [Finset.sum_range_succ', Finset.sum_range_succ'] at h0 h1
  simp at h0 h1
  intro d hd
  interval_cases d
  · exact h1
  · linarith

/-- `C53_table` for the dual numbers: `V = X^2`, `e = t = X`, `a = 3 + 2 ε`: the coordinate is `-3`. -/
example {xg : ℚ[X] → ℚ[X] → ℚ[X] × ℚ[X] × ℚ[X]} (hxg : XgcdOk xg) :
    ∃ Z2, invTable xg X (X ^ 2) (fun i => exL (DualNumber.eps ^ i)) = some Z2 ∧
      coordTable X (X ^ 2) Z2 (fun i => exL (DualNumber.eps ^ i * (3 + 2 * DualNumber.eps))) = C (-3) := by
  obtain ⟨Z2, h1, h2⟩ := C53_table hxg exEps_min (e := X) (t := X) (by simp [pow_two, DualNumber.eps_mul_eps]) (pow_two X) ⟨2, dvd_rfl⟩
  refine ⟨Z2, h1, ?_⟩
  obtain ⟨h3, h4, -⟩ := h2 (3 + 2 * DualNumber.eps)
  have h5 := (h4 (C 3)).mp (by
    intro i
    have : aeval (DualNumber.eps : DualNumber ℚ) (X : ℚ[X]) * (3 + 2 * DualNumber.eps - aeval DualNumber.eps (C 3 : ℚ[X])) = 0 := by
      rw [aeval_X, aeval_C, map_ofNat, add_sub_cancel_left, mul_left_comm, DualNumber.eps_mul_eps, mul_zero]
    rw [this, mul_zero, map_zero])
  set P := -coordTable X (X ^ 2) Z2 (fun i => exL (DualNumber.eps ^ i * (3 + 2 * DualNumber.eps))) with hP
  have h6 : C 3 - P = 0 := by
    apply eq_zero_of_dvd_of_degree_lt h5
    refine lt_of_le_of_lt (degree_sub_le _ _) (max_lt ?_ h3)
    rw [degree_X]
    exact lt_of_le_of_lt degree_C_le (by norm_num)
  have h7 : coordTable X (X ^ 2) Z2 (fun i => exL (DualNumber.eps ^ i * (3 + 2 * DualNumber.eps))) = -P := by
    rw [hP, neg_neg]
  rw [h7, ← sub_eq_zero.mp h6, map_neg]

end Verif.Props
