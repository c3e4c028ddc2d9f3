import Verif.ReadFile
import Verif.LiftStore
import Mathlib.Data.List.GetD

/-!
Printing of a lifted Groebner basis over the rationals.
Source: src/msolve/lifting-gb.c 277-374, src/msolve/iofiles.c 67-121.
-/
namespace Verif.PrintQq
open Verif.Spec.Text Verif.Parse

/-- `mpz_out_str(·, 10, z)`. -/
def mpzText (z : ℤ) : List Char := (if z < 0 then ['-'] else []) ++ Nat.toDigits 10 z.natAbs

/-- The factor for one variable: the exponent is written if it is not one, iofiles.c 84-89, 100-115. -/
def factorText (nm : List Char) (e : ℕ) : List Char := nm ++ if e = 1 then [] else '^' :: Nat.toDigits 10 e

/-- `display_monomial`, iofiles.c 67-92: a star precedes every factor; the monomial one is written as `1`.  The elements are the
names behind the elimination block with the exponents. -/
def displayMonomial (xs : List (List Char × ℕ)) : List Char :=
  if xs.all fun x => x.2 = 0 then ['1'] else xs.flatMap fun x => if 0 < x.2 then '*' :: factorText x.1 x.2 else []

/-- `display_monomial_single`, iofiles.c 94-121: `b` tells whether a factor has been written. -/
def displayMonomialSingle : Bool → List (List Char × ℕ) → List Char
  | _, [] => []
  | b, x :: xs =>
    if 0 < x.2 then (if b then ['*'] else []) ++ factorText x.1 x.2 ++ displayMonomialSingle true xs
    else displayMonomialSingle b xs

/-- The names and exponents of the monomial `m`, `vnames[k + elim]` and `bexp[pos * (nvars - elim) + k]`. -/
def named {n : ℕ} (vnames : List (List Char)) (elim : ℕ) (m : Fin n → ℕ) : List (List Char × ℕ) :=
  (vnames.drop elim).zip (List.ofFn m)

/-- The term of slot `i > 0`, lifting-gb.c 294-315. -/
def displaySlot (qn qd : ℤ) (xs : List (List Char × ℕ)) : List Char :=
  (if (qn ≠ 0 ∧ qn ≠ 1) ∨ qd ≠ 1 then
    (if 0 < qn then ['+'] else []) ++ mpzText qn ++ (if qd ≠ 1 then '/' :: mpzText qd else []) ++ ['*']
   else if qn ≠ 0 then ['+'] else []) ++
  if qn ≠ 0 then displayMonomialSingle false xs else []

/-- The constant term, lifting-gb.c 317-327. -/
def displayConst (qn qd : ℤ) : List Char :=
  (if 0 < qn then '+' :: mpzText qn else []) ++ (if qn < 0 then mpzText qn else []) ++ if qd ≠ 1 then '/' :: mpzText qd else []

/-- `display_modpoly`, lifting-gb.c 277-325. -/
def displayModpoly {n : ℕ} (vnames : List (List Char)) (elim : ℕ) (ldm : Fin n → ℕ) (mb : List (Fin n → ℕ)) (P : LiftGB.MPoly) : List Char :=
  if P.len = 0 then displayMonomial (named vnames elim ldm)
  else (if P.lm ≠ 1 then mpzText P.lm ++ ['*'] else []) ++ displayMonomialSingle false (named vnames elim ldm) ++
    ((List.range (P.len - 1)).reverse.flatMap fun i => displaySlot (P.qn (i + 1)) (P.qd (i + 1)) (named vnames elim (mb.getD (i + 1) 0))) ++
    displayConst (P.qn 0) (P.qd 0)

/-- `display_gbmodpoly_cf_qq`, lifting-gb.c 327-343. -/
def displayBasis {n : ℕ} (vnames : List (List Char)) (elim : ℕ) (ldm mb : List (Fin n → ℕ)) (npol : ℕ) (polys : ℕ → LiftGB.MPoly) : List Char :=
  if npol = 0 then "[0]:\n".toList
  else '[' :: ((List.range (npol - 1)).flatMap fun k => displayModpoly vnames elim (ldm.getD k 0) mb (polys k) ++ [',', ' ', '\n']) ++
    displayModpoly vnames elim (ldm.getD (npol - 1) 0) mb (polys (npol - 1)) ++ ['\n', ']', ':', '\n']

/-- `display_lm_gbmodpoly_cf_qq`, lifting-gb.c 345-374. -/
def displayLeads {n : ℕ} (vnames : List (List Char)) (elim : ℕ) (ldm : List (Fin n → ℕ)) (npol : ℕ) (polys : ℕ → LiftGB.MPoly) : List Char :=
  let mon := fun k => if (polys k).len = 0 then displayMonomial (named vnames elim (ldm.getD k 0))
    else displayMonomialSingle false (named vnames elim (ldm.getD k 0))
  if npol = 0 then "[0]:\n".toList
  else '[' :: ((List.range (npol - 1)).flatMap fun k => mon k ++ [',', ' ', '\n']) ++ mon (npol - 1) ++ ['\n', ']', ':', '\n']

/-! ### The terms -/

/-- The factors that are written for a monomial. -/
def facs (L : ℕ) (e : List ℕ) : List Fac :=
  (List.range L).filterMap fun k => if 0 < e.getD k 0 then
    some ⟨k, if e.getD k 0 = 1 then none else some (Nat.toDigits 10 (e.getD k 0))⟩ else none

theorem facs_vs (L : ℕ) (e : List ℕ) : (facs L e).map (·.v) = (List.range L).filter fun k => 0 < e.getD k 0 := by
  unfold facs
  generalize List.range L = M
  induction M with
  | nil => rfl
  | cons k M ih =>
    rw [List.filterMap_cons]
    by_cases h : 0 < e.getD k 0
    · rw [if_pos h, List.filter_cons_of_pos (by simpa using h)]
      simpa using ih
    · rw [if_neg h, List.filter_cons_of_neg (by simpa using h)]
      exact ih

theorem facs_exps {L : ℕ} {e : List ℕ} (hlt : ∀ x ∈ e, x < 2 ^ 31) : ∀ f ∈ facs L e, ∀ ds, f.e = some ds → Digits ds ∧ dec ds < 2 ^ 31 := by
  intro f hf ds hds
  simp only [facs, List.mem_filterMap, List.mem_range] at hf
  obtain ⟨k, hk, hf⟩ := hf
  split at hf
  · simp only [Option.some.injEq] at hf
    rw [← hf] at hds
    simp only at hds
    split at hds
    · simp at hds
    · simp only [Option.some.injEq] at hds
      rw [← hds]
      refine ⟨(toDigits_digits _).1, ?_⟩
      rw [(toDigits_digits _).2, List.getD_eq_getElem?_getD]
      cases hx : e[k]? with
      | none => norm_num
      | some x => exact hlt x (List.mem_of_getElem? hx)
  · simp at hf

theorem facs_expo {L k : ℕ} {e : List ℕ} (hk : k < L) :
    (((facs L e).filter fun f => f.v = k).map fun f => match f.e with | none => 1 | some ds => dec ds).sum = e.getD k 0 := by
  have key : ∀ M : List ℕ, M.Nodup → ((((M.filterMap fun k => if 0 < e.getD k 0 then
      some (⟨k, if e.getD k 0 = 1 then none else some (Nat.toDigits 10 (e.getD k 0))⟩ : Fac) else none).filter
      fun f => f.v = k).map fun f => match f.e with | none => 1 | some ds => dec ds).sum = if k ∈ M then e.getD k 0 else 0) := by
    intro M hM
    induction M with
    | nil => rfl
    | cons j M ih =>
      rw [List.nodup_cons] at hM
      rw [List.filterMap_cons]
      by_cases hjk : j = k
      · subst hjk
        have hi := ih hM.2
        rw [if_neg hM.1] at hi
        by_cases h : 0 < e.getD j 0
        · rw [if_pos h]
          simp only [List.filter_cons_of_pos, decide_true, List.map_cons, List.sum_cons, List.mem_cons, true_or, if_true]
          rw [hi]
          split
          · next hx =>
            split at hx
            · omega
            · simp at hx
          · next ds hx =>
            split at hx
            · simp at hx
            · simp only [Option.some.injEq] at hx
              rw [← hx, (toDigits_digits _).2]
              rfl
        · rw [if_neg h]
          simp only
          rw [hi]
          simp only [List.mem_cons, true_or, if_true]
          omega
      · have hmem : (k ∈ j :: M) ↔ k ∈ M := by simp [Ne.symm hjk]
        by_cases h : 0 < e.getD j 0
        · rw [if_pos h]
          simp only
          rw [List.filter_cons_of_neg (by simpa using hjk), ih hM.2]
          simp only [hmem]
        · rw [if_neg h]
          simp only
          rw [ih hM.2]
          simp only [hmem]
  have := key (List.range L) List.nodup_range
  rw [if_pos (List.mem_range.mpr hk)] at this
  exact this

theorem zip_range {names : List (List Char)} {e : List ℕ} (he : e.length = names.length) :
    names.zip e = (List.range names.length).map fun k => (names.getD k [], e.getD k 0) := by
  apply List.ext_getElem
  · simp [he]
  · intro i h1 h2
    have h3 : i < names.length := by simpa using h2
    simp [List.getD_eq_getElem?_getD, List.getElem?_eq_getElem h3, List.getElem?_eq_getElem (show i < e.length by omega)]

theorem single_true (names : List (List Char)) (e : List ℕ) (M : List ℕ) :
    displayMonomialSingle true (M.map fun k => (names.getD k [], e.getD k 0)) =
      ((M.filterMap fun k => if 0 < e.getD k 0 then
        some (⟨k, if e.getD k 0 = 1 then none else some (Nat.toDigits 10 (e.getD k 0))⟩ : Fac) else none).map (Fac.text names)).flatMap
        fun q => '*' :: q := by
  induction M with
  | nil => rfl
  | cons k M ih =>
    rw [List.map_cons, displayMonomialSingle, ih, List.filterMap_cons]
    by_cases h : 0 < e.getD k 0
    · simp only [if_pos h]
      simp only [if_true, List.map_cons, List.flatMap_cons, List.cons_append, List.nil_append, List.cons.injEq, true_and]
      congr 1
      unfold Fac.text factorText
      simp only
      congr 1
      by_cases h1 : e.getD k 0 = 1
      · rw [if_pos h1, if_pos h1]
      · rw [if_neg h1, if_neg h1]
    · simp only [if_neg h]

theorem single_false (names : List (List Char)) (e : List ℕ) (M : List ℕ) :
    displayMonomialSingle false (M.map fun k => (names.getD k [], e.getD k 0)) =
      List.intercalate ['*'] ((M.filterMap fun k => if 0 < e.getD k 0 then
        some (⟨k, if e.getD k 0 = 1 then none else some (Nat.toDigits 10 (e.getD k 0))⟩ : Fac) else none).map (Fac.text names)) := by
  induction M with
  | nil => rfl
  | cons k M ih =>
    rw [List.map_cons, displayMonomialSingle, List.filterMap_cons]
    by_cases h : 0 < e.getD k 0
    · simp only [if_pos h]
      rw [single_true, List.map_cons, intercalate_star]
      simp only [Bool.false_eq_true, if_false, List.nil_append]
      congr 1
      unfold Fac.text factorText
      simp only
      congr 1
      by_cases h1 : e.getD k 0 = 1
      · rw [if_pos h1, if_pos h1]
      · rw [if_neg h1, if_neg h1]
    · simp only [if_neg h]
      exact ih

theorem single_facs {names : List (List Char)} {e : List ℕ} (he : e.length = names.length) :
    displayMonomialSingle false (names.zip e) = List.intercalate ['*'] ((facs names.length e).map (Fac.text names)) := by
  rw [zip_range he, single_false]; rfl

theorem facs_ne_nil {L : ℕ} {e : List ℕ} (he : e.length = L) {x : ℕ} (hx : x ∈ e) (h0 : 0 < x) : facs L e ≠ [] := by
  obtain ⟨k, hk, rfl⟩ := List.mem_iff_getElem.mp hx
  intro h
  have h2 := facs_vs L e
  rw [h, List.map_nil] at h2
  have : k ∈ ([] : List ℕ) := by
    rw [h2, List.mem_filter, List.mem_range, List.getD_eq_getElem _ _ hk]
    exact ⟨by omega, by simpa using h0⟩
  simp at this

/-- The term with numerator `z` and denominator `d`; `one` tells whether the coefficient one is written. -/
def qMon (one : Bool) (L : ℕ) (z d : ℤ) (e : List ℕ) : Mon where
  neg := decide (z < 0)
  num := if z = 1 ∧ d = 1 ∧ one = false then none
    else some ⟨Nat.toDigits 10 z.natAbs, if d = 1 then none else some (Nat.toDigits 10 d.natAbs)⟩
  fs := facs L e

theorem qMon_numer (one : Bool) (L : ℕ) (z d : ℤ) (e : List ℕ) : (qMon one L z d e).numer = z := by
  unfold Mon.numer qMon
  simp only [decide_eq_true_eq]
  by_cases h : z = 1 ∧ d = 1 ∧ one = false
  · rw [if_pos h, h.1]; norm_num
  · rw [if_neg h]
    simp only [(toDigits_digits _).2]
    split <;> omega

theorem qMon_denom (one : Bool) (L : ℕ) (z : ℤ) {d : ℤ} (hd : 0 < d) (e : List ℕ) : (qMon one L z d e).denom = d := by
  unfold Mon.denom qMon
  simp only
  split
  · next h =>
    split at h
    · next h1 => exact h1.2.1.symm
    · simp at h
  · next a h =>
    split at h
    · simp at h
    · simp only [Option.some.injEq] at h
      rw [← h]
      simp only
      by_cases h1 : d = 1
      · simp [h1]
      · rw [if_neg h1]
        simp only [(toDigits_digits _).2]
        omega

theorem qMon_expoRow {L : ℕ} (one : Bool) (z d : ℤ) {e : List ℕ} (he : e.length = L) :
    expoRow L (qMon one L z d e) = e.map (Nat.cast : ℕ → ℤ) := by
  apply List.ext_getElem
  · simp [expoRow, he]
  · intro i h1 h2
    have h3 : i < L := by simpa [expoRow] using h1
    have h4 : (qMon one L z d e).expo i = e.getD i 0 := facs_expo h3
    simp [expoRow, h4, List.getD_eq_getElem?_getD, List.getElem?_eq_getElem (show i < e.length by omega)]

theorem qMon_ok {names : List (List Char)} {one : Bool} {z d : ℤ} {e : List ℕ} (hlt : ∀ x ∈ e, x < 2 ^ 31)
    (h : one = true ∨ facs names.length e ≠ []) : (qMon one names.length z d e).Ok names where
  some := by
    rcases h with h | h
    · left; simp [qMon, h]
    · right; exact h
  num := by
    intro a ha
    simp only [qMon] at ha
    split at ha
    · simp at ha
    · simp only [Option.some.injEq] at ha
      subst ha
      refine ⟨(toDigits_digits _).1, fun ds hds => ?_⟩
      simp only at hds
      split at hds
      · simp at hds
      · simp only [Option.some.injEq] at hds
        rw [← hds]; exact (toDigits_digits _).1
  vars := by
    intro f hf
    have : f.v ∈ (facs names.length e).map (·.v) := List.mem_map_of_mem hf
    rw [facs_vs] at this
    exact List.mem_range.mp (List.mem_of_mem_filter this)
  exps := facs_exps hlt
  nodup := by
    have : (qMon one names.length z d e).fs.map (·.v) = _ := facs_vs names.length e
    rw [this]; exact List.nodup_range.filter _

/-- The text of a term with its sign. -/
theorem qMon_signed {names : List (List Char)} (one : Bool) (z : ℤ) {d : ℤ} (hd : 0 < d) {e : List ℕ} (he : e.length = names.length)
    (hf : facs names.length e ≠ []) :
    (if (qMon one names.length z d e).neg then ['-'] else []) ++ (qMon one names.length z d e).body names =
      (if z = 1 ∧ d = 1 ∧ one = false then [] else mpzText z ++ (if d ≠ 1 then '/' :: mpzText d else []) ++ ['*']) ++
        displayMonomialSingle false (names.zip e) := by
  rw [single_facs he]
  obtain ⟨f, fs, hfs⟩ := List.exists_cons_of_ne_nil hf
  unfold Mon.body Mon.pieces qMon mpzText
  simp only [decide_eq_true_eq]
  by_cases h : z = 1 ∧ d = 1 ∧ one = false
  · rw [if_pos h, if_pos h]
    simp [h.1]
  · rw [if_neg h, if_neg h, hfs]
    simp only [Option.map_some, Option.toList_some, List.map_cons, List.singleton_append, List.intercalate_cons_cons]
    have hd' : ¬ d < 0 := by omega
    by_cases h1 : d = 1
    · simp [h1, Num.text]
    · simp [h1, Num.text, hd']

theorem qMon_const {names : List (List Char)} (z : ℤ) {d : ℤ} (hd : 0 < d) {e : List ℕ} (hf : facs names.length e = []) :
    (if (qMon true names.length z d e).neg then ['-'] else []) ++ (qMon true names.length z d e).body names =
      mpzText z ++ (if d ≠ 1 then '/' :: mpzText d else []) := by
  unfold Mon.body Mon.pieces qMon mpzText
  rw [hf]
  have hd' : ¬ d < 0 := by omega
  by_cases h1 : d = 1
  · simp [h1, Num.text]
  · simp [h1, Num.text, hd']

/-! ### Polynomials -/

/-- The exponents of a monomial as a list. -/
abbrev row {n : ℕ} (m : Fin n → ℕ) : List ℕ := List.ofFn m

theorem facs_zero {n L : ℕ} : facs L (row (0 : Fin n → ℕ)) = [] := by
  unfold facs
  rw [List.filterMap_eq_nil_iff]
  intro k _
  rw [if_neg]
  rw [List.getD_eq_getElem?_getD]
  cases h : (row (0 : Fin n → ℕ))[k]? with
  | none => simp
  | some x =>
    have := List.mem_of_getElem? h
    simp [row] at this
    simp [this]

theorem facs_row {n L : ℕ} {m : Fin n → ℕ} (hL : n = L) (hm : m ≠ 0) : facs L (row m) ≠ [] := by
  obtain ⟨i, hi⟩ := Function.ne_iff.mp hm
  exact facs_ne_nil (x := m i) (by simp [row, hL]) (by simp [row]) (Nat.pos_of_ne_zero hi)

/-- The terms that are written for a polynomial with slots: the leading term and the other terms from the last one to the first. -/
def qMons {n : ℕ} (L : ℕ) (ldm : Fin n → ℕ) (mb : List (Fin n → ℕ)) (P : LiftGB.MPoly) : List Mon :=
  qMon false L P.lm 1 (row ldm) ::
    ((List.range P.len).reverse.filter fun i => decide (P.qn i ≠ 0)).map fun i => qMon (decide (i = 0)) L (P.qn i) (P.qd i) (row (mb.getD i 0))

/-- What is needed of a polynomial for its text to be well formed: the first slot belongs to the monomial one, the others do not,
denominators are positive, and those of vanishing coefficients are one. -/
structure Printable {n : ℕ} (ldm : Fin n → ℕ) (mb : List (Fin n → ℕ)) (P : LiftGB.MPoly) : Prop where
  len : P.len ≠ 0
  lm : 0 < P.lm
  ldm : ldm ≠ 0
  first : mb.getD 0 0 = 0
  other : ∀ i < P.len, i ≠ 0 → mb.getD i 0 ≠ 0
  den : ∀ i < P.len, 0 < P.qd i ∧ (P.qn i = 0 → P.qd i = 1)

theorem displaySlot_eq {names : List (List Char)} {z d : ℤ} (hz : z ≠ 0) (hd : 0 < d) {e : List ℕ} (he : e.length = names.length)
    (hf : facs names.length e ≠ []) : displaySlot z d (names.zip e) =
      (if (qMon false names.length z d e).neg then '-' else '+') :: (qMon false names.length z d e).body names := by
  have h := qMon_signed false z hd he hf
  have hn : (qMon false names.length z d e).neg = decide (z < 0) := rfl
  rw [hn] at h ⊢
  simp only [decide_eq_true_eq] at h ⊢
  unfold displaySlot
  by_cases h0 : z < 0
  · simp only [h0, if_true, show ¬ (z = 1 ∧ d = 1 ∧ True) by omega, if_false] at h
    simp only [h0, if_true, show ¬ 0 < z by omega, hz, ne_eq, not_false_eq_true, show ¬ z = 1 by omega, and_self, true_or, if_false,
      List.nil_append]
    exact h.symm
  · simp only [h0, if_false, List.nil_append] at h
    rw [h]
    simp only [h0, if_false, show 0 < z by omega, if_true, hz, ne_eq, not_false_eq_true, true_and]
    by_cases h1 : z = 1 ∧ d = 1
    · simp [h1.1, h1.2]
    · have h2 : ¬ (z = 1 ∧ d = 1 ∧ True) := by tauto
      have h3 : ¬ z = 1 ∨ ¬ d = 1 := by tauto
      simp only [h2, h3, if_true, if_false]
      simp

theorem displaySlot_zero {xs : List (List Char × ℕ)} : displaySlot 0 1 xs = [] := by simp [displaySlot]

theorem displayConst_eq {names : List (List Char)} {z d : ℤ} (hz : z ≠ 0) (hd : 0 < d) {e : List ℕ}
    (hf : facs names.length e = []) : displayConst z d =
      (if (qMon true names.length z d e).neg then '-' else '+') :: (qMon true names.length z d e).body names := by
  have h := qMon_const (names := names) z hd hf
  have hn : (qMon true names.length z d e).neg = decide (z < 0) := rfl
  rw [hn] at h ⊢
  simp only [decide_eq_true_eq] at h ⊢
  unfold displayConst
  by_cases h0 : z < 0
  · rw [if_pos h0] at h ⊢
    rw [if_neg (by omega), if_pos h0, List.nil_append]
    exact h.symm
  · rw [if_neg h0] at h ⊢
    rw [List.nil_append] at h
    rw [h, if_pos (by omega), if_neg h0]
    simp

/-- The text of a polynomial is a line of the grammar. -/
theorem displayModpoly_line {n : ℕ} {vnames : List (List Char)} {elim : ℕ} (hn : vnames.length = elim + n) {ldm : Fin n → ℕ}
    {mb : List (Fin n → ℕ)} {P : LiftGB.MPoly} (h : Printable ldm mb P) :
    displayModpoly vnames elim ldm mb P = line (vnames.drop elim) (qMons n ldm mb P) := by
  have hL : (vnames.drop elim).length = n := by rw [List.length_drop]; omega
  have hrow : ∀ m : Fin n → ℕ, (row m).length = (vnames.drop elim).length := fun m => by rw [hL]; simp [row]
  unfold displayModpoly named qMons
  generalize vnames.drop elim = names at hL hrow ⊢
  rw [if_neg h.len]
  have hlead := qMon_signed (names := names) false P.lm (d := 1) one_pos (hrow ldm) (by rw [hL]; exact facs_row rfl h.ldm)
  rw [hL] at hlead
  have hlead' : (if P.lm ≠ 1 then mpzText P.lm ++ ['*'] else []) ++ displayMonomialSingle false (names.zip (row ldm)) =
      (if (qMon false n P.lm 1 (row ldm)).neg then ['-'] else []) ++ (qMon false n P.lm 1 (row ldm)).body names := by
    rw [hlead]
    by_cases h1 : P.lm = 1 <;> simp [h1]
  rw [hlead', line, List.append_assoc]
  congr 1
  obtain ⟨L, hlen⟩ := Nat.exists_eq_succ_of_ne_zero h.len
  rw [List.flatMap_map]
  have hr : (List.range P.len).reverse = (List.range L).reverse.map (· + 1) ++ [0] := by
    rw [hlen, Nat.succ_eq_add_one, List.range_succ_eq_map, List.reverse_cons, List.map_reverse]
  rw [hr, List.filter_append, List.flatMap_append, show P.len - 1 = L by omega]
  congr 1
  · have key : ∀ M : List ℕ, (∀ i ∈ M, i < L) →
        (M.flatMap fun i => displaySlot (P.qn (i + 1)) (P.qd (i + 1)) (names.zip (row (mb.getD (i + 1) 0)))) =
        ((M.map (· + 1)).filter fun i => decide (P.qn i ≠ 0)).flatMap fun i =>
          (if (qMon (decide (i = 0)) n (P.qn i) (P.qd i) (row (mb.getD i 0))).neg then '-' else '+') ::
            (qMon (decide (i = 0)) n (P.qn i) (P.qd i) (row (mb.getD i 0))).body names := by
      intro M hM
      induction M with
      | nil => rfl
      | cons i M ih =>
        have hi := hM i List.mem_cons_self
        obtain ⟨hd1, hd2⟩ := h.den (i + 1) (by omega)
        rw [List.flatMap_cons, ih fun j hj => hM j (List.mem_cons_of_mem _ hj), List.map_cons, List.filter_cons]
        by_cases hz : P.qn (i + 1) = 0
        · rw [if_neg (by simpa using hz), hz, hd2 hz, displaySlot_zero, List.nil_append]
        · rw [if_pos (by simpa using hz), List.flatMap_cons,
            displaySlot_eq hz hd1 (hrow _) (by rw [hL]; exact facs_row rfl (h.other (i + 1) (by omega) (by omega))), hL]
          rfl
    exact key _ fun i hi => by simpa using hi
  · obtain ⟨hd1, hd2⟩ := h.den 0 (by omega)
    by_cases hz : P.qn 0 = 0
    · simp [hz, hd2 hz, displayConst]
    · rw [List.filter_cons, if_pos (by simpa using hz), List.filter_nil, List.flatMap_cons, List.flatMap_nil, List.append_nil,
        displayConst_eq (names := names) hz hd1 (e := row (mb.getD 0 0)) (by rw [h.first]; exact facs_zero), hL]
      rfl

theorem qMons_ok {n : ℕ} {names : List (List Char)} (hn : names.length = n) {ldm : Fin n → ℕ} {mb : List (Fin n → ℕ)} {P : LiftGB.MPoly}
    (h : Printable ldm mb P) (h1 : ∀ i, ldm i < 2 ^ 31) (h2 : ∀ m ∈ mb, ∀ i, m i < 2 ^ 31) : ∀ u ∈ qMons n ldm mb P, u.Ok names := by
  subst hn
  intro u hu
  rcases List.mem_cons.mp hu with rfl | hu
  · exact qMon_ok (by simpa [row] using h1) (.inr (facs_row rfl h.ldm))
  · obtain ⟨i, hi, rfl⟩ := List.mem_map.mp hu
    rw [List.mem_filter, List.mem_reverse, List.mem_range] at hi
    refine qMon_ok ?_ ?_
    · intro x hx
      simp only [row, List.mem_ofFn] at hx
      obtain ⟨k, rfl⟩ := hx
      by_cases hb : i < mb.length
      · rw [List.getD_eq_getElem _ _ hb]; exact h2 _ (List.getElem_mem _) k
      · rw [List.getD_eq_default _ _ (by omega)]; norm_num
    · by_cases h0 : i = 0
      · left; simp [h0]
      · right; exact facs_row rfl (h.other i hi.1 h0)

/-- What is read for the text of a polynomial. -/
def qRead {n : ℕ} (ldm : Fin n → ℕ) (mb : List (Fin n → ℕ)) (P : LiftGB.MPoly) : List ((ℤ × ℤ) × List ℤ) :=
  ((P.lm, 1), List.ofFn fun i => (ldm i : ℤ)) ::
    ((List.range P.len).reverse.filter fun i => decide (P.qn i ≠ 0)).map fun i => ((P.qn i, P.qd i), List.ofFn fun j => (mb.getD i 0 j : ℤ))

theorem qqPoly_qMons {n : ℕ} {ldm : Fin n → ℕ} {mb : List (Fin n → ℕ)} {P : LiftGB.MPoly} (h : Printable ldm mb P) :
    qqPoly n (qMons n ldm mb P) = qRead ldm mb P := by
  have hrow : ∀ m : Fin n → ℕ, (row m).length = n := fun m => by simp [row]
  have hc : ∀ m : Fin n → ℕ, (row m).map (Nat.cast : ℕ → ℤ) = List.ofFn fun i => (m i : ℤ) := fun m => by simp [row]; rfl
  unfold qqPoly qMons qRead
  rw [List.map_cons, List.map_map, qMon_numer, qMon_denom _ _ _ one_pos, qMon_expoRow _ _ _ (hrow _), hc]
  congr 1
  apply List.map_congr_left
  intro i hi
  rw [List.mem_filter, List.mem_reverse, List.mem_range] at hi
  rw [Function.comp_apply, qMon_numer, qMon_denom _ _ _ (h.den i hi.1).1, qMon_expoRow _ _ _ (hrow _), hc]

/-! ### Spaces behind commas -/

/-- Cutting commutes with the removal of spaces, if the text does not end with one. -/
theorem chop_filter {d : Char} (hd : d ≠ ' ') : ∀ s : List Char, (∀ c ∈ s.getLast?, c ≠ ' ') →
    (chop d s).map (fun q => q.filter fun c => c ≠ ' ') = chop d (s.filter fun c => c ≠ ' ')
  | [], _ => rfl
  | c :: s, h => by
    have hs : ∀ c ∈ s.getLast?, c ≠ ' ' := by
      intro x hx
      refine h x ?_
      cases s with
      | nil => simp at hx
      | cons a s => rw [List.getLast?_cons_cons]; exact hx
    have ih := chop_filter hd s hs
    by_cases hc : c = ' '
    · subst hc
      rw [List.filter_cons_of_neg (by simp), ← ih, chop, if_neg (Ne.symm hd)]
      cases hq : chop d s with
      | nil =>
        have := chop_flatten d s
        rw [hq] at this
        simp only [List.flatten_nil] at this
        subst this
        exact absurd rfl (h ' ' (by simp))
      | cons q qs => simp
    · rw [List.filter_cons_of_pos (by simpa using hc), chop, chop]
      by_cases hcd : c = d
      · rw [if_pos hcd, if_pos hcd, List.map_cons, ih]
        congr 1
        simp [hc]
      · rw [if_neg hcd, if_neg hcd, ← ih]
        cases chop d s with
        | nil => simp [hc]
        | cons q qs => simp [hc]

theorem clean_filter (q : List Char) : clean (q.filter fun c => c ≠ ' ') = clean q := by
  unfold clean
  rw [List.filter_filter]
  apply List.filter_congr
  intro c _
  by_cases h : c = ' ' <;> simp [h]

theorem blank_filter (q : List Char) : blank (q.filter fun c => c ≠ ' ') = blank q := by
  unfold blank
  induction q with
  | nil => rfl
  | cons c q ih =>
    by_cases h : c = ' '
    · subst h
      rw [List.filter_cons_of_neg (by simp), ih, List.all_cons]
      rfl
    · rw [List.filter_cons_of_pos (by simpa using h), List.all_cons, List.all_cons, ih]

/-- Spaces in the part of a file behind the second line do not matter. -/
theorem readFile_spaces {a b s : List Char} (ha : '\n' ∉ a) (hb : '\n' ∉ b) (h : ∀ c ∈ s.getLast?, c ≠ ' ') :
    readFile (a ++ '\n' :: (b ++ '\n' :: s)) = readFile (a ++ '\n' :: (b ++ '\n' :: s.filter fun c => c ≠ ' ')) := by
  unfold readFile
  rw [chop_delim ha, chop_delim hb, chop_delim ha, chop_delim hb]
  simp only [chop_flatten]
  have h1 : (chop ',' (s.filter fun c => c ≠ ' ')).map clean = (chop ',' s).map clean := by
    rw [← chop_filter (by decide) s h, List.map_map]
    exact List.map_congr_left fun q _ => clean_filter q
  have h2 : ((chop '\n' (s.filter fun c => c ≠ ' ')).filter fun l => !blank l).length =
      ((chop '\n' s).filter fun l => !blank l).length := by
    rw [← chop_filter (by decide) s h, List.filter_map, List.length_map]
    congr 2
    funext q
    exact congrArg (!·) (blank_filter q)
  rw [h1, h2]

end Verif.PrintQq
