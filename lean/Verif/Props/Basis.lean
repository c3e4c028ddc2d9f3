import Verif.Convert
import Verif.Redundant
import Verif.Props.Orders
import Verif.Props.Monomials
import Mathlib.Tactic.IntervalCases

/-!
Properties C21 and C22: matrix columns and redundant basis elements.
-/
namespace Verif.Props
open Verif.Spec Verif.Orders Verif.Convert Verif.Redundant Verif.DivMask

/-! ### C21 -/

/-- Specification for C21: `col` numbers the monomials `u h` (`h` a table position) such that pivots come
first and each class is in decreasing order for `lt`. -/
structure GoodColumns {n : Nat} (lt : (Fin n → ℕ) → (Fin n → ℕ) → Prop) (eld : Nat) (u : Nat → Fin n → ℕ)
    (piv : Nat → Prop) (col : Nat → Nat) (npiv : Nat) : Prop where
  range : ∀ h, 1 ≤ h → h < eld → col h < eld - 1
  inj : ∀ a b, 1 ≤ a → a < eld → 1 ≤ b → b < eld → col a = col b → a = b
  surj : ∀ c, c < eld - 1 → ∃ h, 1 ≤ h ∧ h < eld ∧ col h = c
  pivots_first : ∀ h, 1 ≤ h → h < eld → (col h < npiv ↔ piv h)
  decreasing : ∀ a b, 1 ≤ a → a < eld → 1 ≤ b → b < eld → (piv a ↔ piv b) → (col a < col b ↔ lt (u b) (u a))

theorem goodColumns_of {n : Nat} (lt : (Fin n → ℕ) → (Fin n → ℕ) → Prop) (A : Admissible lt) (eld : Nat)
    (u : Nat → Fin n → ℕ) (idx : Nat → Nat) (cmp : Nat → Nat → Int) (hcm : List Nat)
    (hs : SortedBy cmp (hcmInit eld) hcm)
    (hidx : ∀ i, 1 ≤ i → i < eld → idx i = 1 ∨ idx i = 2)
    (hinj : ∀ a b, 1 ≤ a → a < eld → 1 ≤ b → b < eld → u a = u b → a = b)
    (hcls : ∀ a b, 1 ≤ a → a < eld → 1 ≤ b → b < eld → idx a < idx b → 0 < cmp a b)
    (hcmp : ∀ a b, 1 ≤ a → a < eld → 1 ≤ b → b < eld → idx a = idx b → lt (u a) (u b) → 0 < cmp a b) :
    GoodColumns lt eld u (fun h => idx h = 2) (setIdx hcm 0 idx) (ncl eld idx) ∧
    hcm.length = eld - 1 ∧ ncl eld idx + ncr eld idx = eld - 1 ∧
    (∀ h, 1 ≤ h → h < eld → hcm[setIdx hcm 0 idx h]? = some h) ∧
    ∀ row : List Nat, (∀ h ∈ row, 1 ≤ h ∧ h < eld) → ∃ row', convRow (setIdx hcm 0 idx) (row.length % 4) row = some row' ∧
      row' = row.map (setIdx hcm 0 idx) ∧ backRow hcm row' = some row := by
  obtain ⟨h1, h2, h3, h4, h5, h6⟩ := columns_spec eld idx cmp (fun a b => lt (u b) (u a)) hcm hs hidx hcls
    (by
      intro a b ha1 ha2 hb1 hb2 hab hne hle
      rcases A.total (u a) (u b) with g | g | g
      · have := hcmp a b ha1 ha2 hb1 hb2 hab g; omega
      · exact absurd (hinj a b ha1 ha2 hb1 hb2 g) hne
      · exact g)
    (fun a b hab hba => A.irrefl _ (A.trans _ _ _ hab hba))
  refine ⟨⟨fun h a b => (h3 h a b).1, ?_, h4, h5, ?_⟩, h1, h2, fun h a b => (h3 h a b).2, ?_⟩
  · intro a b ha1 ha2 hb1 hb2 he
    have e1 := (h3 a ha1 ha2).2
    have e2 := (h3 b hb1 hb2).2
    rw [he, e2] at e1
    exact (Option.some.inj e1).symm
  · intro a b ha1 ha2 hb1 hb2 hab
    refine h6 a b ha1 ha2 hb1 hb2 ?_
    rcases hidx a ha1 ha2 with g | g <;> rcases hidx b hb1 hb2 with g' | g'
    · omega
    · have := hab.mpr g'; omega
    · have := hab.mp g; omega
    · omega
  · intro row hrow
    refine ⟨_, convRow_eq _ _ _ rfl, rfl, ?_⟩
    exact backRow_map _ _ _ (fun x hx => (h3 x (hrow x hx).1 (hrow x hx).2).2)

/-- C21 for the degree reverse lexicographic order: whatever sorted permutation the C library returns, the
columns are a bijective numbering, pivots first, each class decreasing; rows are converted without running
over their end and are restored by the inverse conversion. Needs pairwise distinct monomials in the table
(C11), of total degree below 2^16 (C07). -/
theorem C21_columns_drl {n : Nat} (hn : 1 ≤ n) (eld : Nat) (u : Nat → Fin n → ℕ) (buf : Nat → Nat → Nat)
    (hdeg : ∀ h, ∑ i, u h i < 65536) (idx : Nat → Nat) (hcm : List Nat)
    (hidx : ∀ i, 1 ≤ i → i < eld → idx i = 1 ∨ idx i = 2)
    (hinj : ∀ a b, 1 ≤ a → a < eld → 1 ≤ b → b < eld → u a = u b → a = b)
    (hs : SortedBy (fun a b => cmpPivotsDrl (evl n 0) (idx a) (idx b) (setEv n 0 (ext (u a)) (buf a))
      (setEv n 0 (ext (u b)) (buf b))) (hcmInit eld) hcm) :
    GoodColumns Drl eld u (fun h => idx h = 2) (setIdx hcm 0 idx) (ncl eld idx) ∧
    hcm.length = eld - 1 ∧ ncl eld idx + ncr eld idx = eld - 1 ∧
    (∀ h, 1 ≤ h → h < eld → hcm[setIdx hcm 0 idx h]? = some h) ∧
    ∀ row : List Nat, (∀ h ∈ row, 1 ≤ h ∧ h < eld) → ∃ row', convRow (setIdx hcm 0 idx) (row.length % 4) row = some row' ∧
      row' = row.map (setIdx hcm 0 idx) ∧ backRow hcm row' = some row := by
  refine goodColumns_of Drl (C07_drl_admissible n) eld u idx _ hcm hs hidx hinj ?_ ?_
  · intro a b _ _ _ _ hlt
    exact (C07_drl_sorting_variants _ _ _ _ _).2.2.2.2 hlt
  · intro a b _ _ _ _ hab hlt
    rw [(C07_drl_sorting_variants _ _ _ _ _).2.2.1 hab]
    have := (C07_drl_comparison hn (u a) (u b) (buf a) (buf b) (hdeg a) (hdeg b)).2.2.mpr hlt
    omega

/-- C21 for the block elimination order. -/
theorem C21_columns_be {n : Nat} (k : Nat) (hk : 0 < k) (hkn : k ≤ n) (eld : Nat) (u : Nat → Fin n → ℕ)
    (buf : Nat → Nat → Nat)
    (hdeg : ∀ h, ∑ i, u h i < 65536) (idx : Nat → Nat) (hcm : List Nat)
    (hidx : ∀ i, 1 ≤ i → i < eld → idx i = 1 ∨ idx i = 2)
    (hinj : ∀ a b, 1 ≤ a → a < eld → 1 ≤ b → b < eld → u a = u b → a = b)
    (hs : SortedBy (fun a b => cmpPivotsBe (evl n k) (ebl k) (idx a) (idx b) (setEv n k (ext (u a)) (buf a))
      (setEv n k (ext (u b)) (buf b))) (hcmInit eld) hcm) :
    GoodColumns (Be k) eld u (fun h => idx h = 2) (setIdx hcm 0 idx) (ncl eld idx) ∧
    hcm.length = eld - 1 ∧ ncl eld idx + ncr eld idx = eld - 1 ∧
    (∀ h, 1 ≤ h → h < eld → hcm[setIdx hcm 0 idx h]? = some h) ∧
    ∀ row : List Nat, (∀ h ∈ row, 1 ≤ h ∧ h < eld) → ∃ row', convRow (setIdx hcm 0 idx) (row.length % 4) row = some row' ∧
      row' = row.map (setIdx hcm 0 idx) ∧ backRow hcm row' = some row := by
  refine goodColumns_of (Be k) (C08_be_admissible n k) eld u idx _ hcm hs hidx hinj ?_ ?_
  · intro a b _ _ _ _ hlt
    exact (C08_be_sorting_variants _ _ _ _ _ _).2.2 hlt
  · intro a b _ _ _ _ hab hlt
    rw [(C08_be_sorting_variants _ _ _ _ _ _).1 hab]
    have := (C08_be_comparison k hk hkn (u a) (u b) (buf a) (buf b) (hdeg a) (hdeg b)).2.2.mpr hlt
    omega

/-- C21 for the lexicographic order. -/
theorem C21_columns_lex {n : Nat} (hn : 1 ≤ n) (eld : Nat) (u : Nat → Fin n → ℕ) (buf : Nat → Nat → Nat)
    (hexp : ∀ h i, u h i < 65536) (idx : Nat → Nat) (hcm : List Nat)
    (hidx : ∀ i, 1 ≤ i → i < eld → idx i = 1 ∨ idx i = 2)
    (hinj : ∀ a b, 1 ≤ a → a < eld → 1 ≤ b → b < eld → u a = u b → a = b)
    (hs : SortedBy (fun a b => cmpPivotsLex (evl n 0) (idx a) (idx b) (setEv n 0 (ext (u a)) (buf a))
      (setEv n 0 (ext (u b)) (buf b))) (hcmInit eld) hcm) :
    GoodColumns Lex eld u (fun h => idx h = 2) (setIdx hcm 0 idx) (ncl eld idx) ∧
    hcm.length = eld - 1 ∧ ncl eld idx + ncr eld idx = eld - 1 ∧
    (∀ h, 1 ≤ h → h < eld → hcm[setIdx hcm 0 idx h]? = some h) ∧
    ∀ row : List Nat, (∀ h ∈ row, 1 ≤ h ∧ h < eld) → ∃ row', convRow (setIdx hcm 0 idx) (row.length % 4) row = some row' ∧
      row' = row.map (setIdx hcm 0 idx) ∧ backRow hcm row' = some row := by
  refine goodColumns_of Lex (C09_lex_admissible n) eld u idx _ hcm hs hidx hinj ?_ ?_
  · intro a b _ _ _ _ hlt
    exact (C09_lex_sorting_variants _ _ _ _ _).2.2 hlt
  · intro a b _ _ _ _ hab hlt
    rw [(C09_lex_sorting_variants _ _ _ _ _).1 hab]
    have := (C09_lex_comparison hn (u a) (u b) (buf a) (buf b) (hexp a) (hexp b)).2.2.mpr hlt
    omega

/-- C21, consequence used by the linear algebra (C19): in a reducer row whose first monomial is a pivot and
the largest of the row, the first column is the smallest one. -/
theorem C21_reducer_head {n : Nat} {lt : (Fin n → ℕ) → (Fin n → ℕ) → Prop} {eld : Nat} {u : Nat → Fin n → ℕ}
    {piv : Nat → Prop} {col : Nat → Nat} {npiv : Nat} (G : GoodColumns lt eld u piv col npiv)
    (h : Nat) (row : List Nat) (hh : 1 ≤ h ∧ h < eld) (hrow : ∀ x ∈ row, 1 ≤ x ∧ x < eld) (hp : piv h)
    (hlt : ∀ x ∈ row, lt (u x) (u h)) : ∀ x ∈ row, col h < col x := by
  intro x hx
  obtain ⟨hx1, hx2⟩ := hrow x hx
  by_cases hpx : piv x
  · exact (G.decreasing h x hh.1 hh.2 hx1 hx2 ⟨fun _ => hpx, fun _ => hp⟩).mpr (hlt x hx)
  · have h1 := (G.pivots_first h hh.1 hh.2).mpr hp
    have h2 : ¬ col x < npiv := fun h => hpx ((G.pivots_first x hx1 hx2).mp h)
    omega

/-- C21, consequence for the new basis elements: a row of the echelon form that has only non pivot columns,
in increasing order, becomes a polynomial with strictly decreasing terms. -/
theorem C21_new_rows_sorted {n : Nat} {lt : (Fin n → ℕ) → (Fin n → ℕ) → Prop} {eld : Nat} {u : Nat → Fin n → ℕ}
    {piv : Nat → Prop} {col : Nat → Nat} {npiv : Nat} (G : GoodColumns lt eld u piv col npiv)
    (hcm : List Nat) (hb : ∀ h, 1 ≤ h → h < eld → hcm[col h]? = some h)
    (row : List Nat) (hr : ∀ c ∈ row, npiv ≤ c ∧ c < eld - 1) (hs : row.Pairwise (· < ·)) :
    ∃ out, backRow hcm row = some out ∧ out.Pairwise (fun a b => lt (u b) (u a)) := by
  induction row with
  | nil => exact ⟨[], rfl, List.Pairwise.nil⟩
  | cons c row ih =>
    obtain ⟨hs1, hs2⟩ := List.pairwise_cons.mp hs
    obtain ⟨out, e, hp⟩ := ih (fun c hc => hr c (List.mem_cons_of_mem _ hc)) hs2
    obtain ⟨hc1, hc2⟩ := hr c List.mem_cons_self
    obtain ⟨h, h1, h2, rfl⟩ := G.surj c hc2
    have e' := hb h h1 h2
    refine ⟨h :: out, ?_, ?_⟩
    · unfold backRow at e ⊢
      rw [List.mapM_cons, e', e]
      rfl
    · rw [List.pairwise_cons]
      refine ⟨?_, hp⟩
      intro x hx
      have hlen : ∀ (r o : List Nat), backRow hcm r = some o → ∀ x ∈ o, ∃ c ∈ r, hcm[c]? = some x := by
        intro r
        induction r with
        | nil => intro o ho x hx; simp only [backRow, List.mapM_nil] at ho; cases ho; simp at hx
        | cons c' r ihr =>
          intro o ho x hx
          unfold backRow at ho ihr
          rw [List.mapM_cons] at ho
          cases hc' : hcm[c']? with
          | none => rw [hc'] at ho; simp at ho
          | some y =>
            rw [hc'] at ho
            cases hr' : List.mapM (fun c => hcm[c]?) r with
            | none => rw [hr'] at ho; simp at ho
            | some z =>
              rw [hr'] at ho
              obtain rfl : y :: z = o := by simpa using ho
              rcases List.mem_cons.mp hx with rfl | hx
              · exact ⟨c', List.mem_cons_self, hc'⟩
              · obtain ⟨c2, hc2, e2⟩ := ihr z hr' x hx
                exact ⟨c2, List.mem_cons_of_mem _ hc2, e2⟩
      obtain ⟨c2, hc2m, e2⟩ := hlen row out e x hx
      obtain ⟨g1, g2⟩ := hr c2 (List.mem_cons_of_mem _ hc2m)
      obtain ⟨x', x1, x2, rfl⟩ := G.surj c2 g2
      rw [hb x' x1 x2] at e2
      obtain rfl := Option.some.inj e2
      have n1 : ¬ piv h := fun hp => by have := (G.pivots_first h h1 h2).mpr hp; omega
      have n2 : ¬ piv x' := fun hp => by have := (G.pivots_first x' x1 x2).mpr hp; omega
      exact (G.decreasing h x' h1 h2 x1 x2 ⟨fun h => absurd h n1, fun h => absurd h n2⟩).mp (hs1 _ hc2m)

/-- Three monomials `x, xy, y^2` in two variables, the second a pivot. -/
def exMon : Nat → Fin 2 → ℕ
  | 1 => ![1, 0]
  | 2 => ![1, 1]
  | 3 => ![0, 2]
  | _ => ![0, 0]

def exIdx : Nat → Nat
  | 2 => 2
  | _ => 1

/-- The hypotheses of C21 hold for a table with a pivot (`xy`) and two other monomials: the sorted column
map is `xy, y^2, x`. -/
example : ∃ hcm : List Nat, hcm = [2, 3, 1] ∧
    (∀ h, ∑ i, exMon h i < 65536) ∧ (∀ i, 1 ≤ i → i < 4 → exIdx i = 1 ∨ exIdx i = 2) ∧
    (∀ a b, 1 ≤ a → a < 4 → 1 ≤ b → b < 4 → exMon a = exMon b → a = b) ∧
    SortedBy (fun a b => cmpPivotsDrl (evl 2 0) (exIdx a) (exIdx b) (setEv 2 0 (ext (exMon a)) (fun _ => 0))
      (setEv 2 0 (ext (exMon b)) (fun _ => 0))) (hcmInit 4) hcm ∧
    setIdx hcm 0 exIdx 2 = 0 ∧ setIdx hcm 0 exIdx 3 = 1 ∧ ncl 4 exIdx = 1 ∧
    convRow (setIdx hcm 0 exIdx) 2 [2, 1] = some [0, 2] := by
  refine ⟨_, rfl, ?_, ?_, ?_, ⟨?_, ?_⟩, by decide, by decide, by decide, by decide⟩
  · intro h
    match h with
    | 0 => decide
    | 1 => decide
    | 2 => decide
    | 3 => decide
    | k + 4 => rw [show exMon (k + 4) = ![0, 0] from rfl]; decide
  · intro i _ _
    interval_cases i <;> decide
  · intro a b _ _ _ _ h
    interval_cases a <;> interval_cases b <;> first | rfl | (exfalso; revert h; decide)
  · decide
  · decide

/-! ### C22 -/

/-- C22: after the redundancy pass no kept leading monomial divides another kept one, every leading monomial
that was not marked before is divisible by a kept one, kept elements are unmarked, the order of the list is
unchanged and the divisor masks stay attached to their elements. The leading monomials are `lm b`; the
divisibility test is the one of the code. -/
theorem C22_remove_redundant {n : Nat} (hn : 1 ≤ n) (nev : Nat) (hnev : nev ≤ n) (dm : Nat → Nat)
    (lm : Nat → Fin n → ℕ) (buf : Nat → Nat → Nat) (hdeg : ∀ b, ∑ i, lm b i < 65536) :
    let p : Params := { ndv := initNdv n, bpv := initBpv n, dv := initDv n nev, dm := dm }
    let ev := fun b => setEv n nev (ext (lm b)) (buf b)
    let div := fun b x => checkDivision (evl n nev) (mask p (ev b)) (mask p (ev x)) (ev b) (ev x)
    ∀ (lml : Nat) (a : Nat → Nat × Nat) (red : Nat → Bool),
      (∀ i < lml, ∀ j < lml, (a i).2 = (a j).2 → i = j) →
      (∀ i < lml, (a i).1 = mask p (ev (a i).2)) →
      ∃ red' a' lml', removeRedundant div lml a red = some (red', a', lml') ∧
        ((List.range lml').map a').Sublist ((List.range lml).map a) ∧
        (∀ i < lml, red (a i).2 = false → ∃ j < lml', ∀ k, lm (a' j).2 k ≤ lm (a i).2 k) ∧
        (∀ i < lml', ∀ j < lml', i ≠ j → ¬ ∀ k, lm (a' j).2 k ≤ lm (a' i).2 k) ∧
        (∀ i < lml', red (a' i).2 = false ∧ red' (a' i).2 = false ∧ (a' i).1 = mask p (ev (a' i).2)) ∧
        (∀ i < lml, red' (a i).2 = false → ∃ j < lml', a' j = a i) := by
  intro p ev div lml a red hinj hmask
  have hdiv : ∀ b x, div b x = true ↔ ∀ k, lm x k ≤ lm b k := fun b x =>
    C10_divides hn nev hnev dm (lm b) (lm x) (buf b) (buf x) (hdeg b) (hdeg x)
  obtain ⟨red', a', lml', e, h1, h2, h3, h4, h5⟩ := removeRedundant_spec div lml a red
    (by
      rw [List.nodup_map_iff_inj_on (List.nodup_range)]
      intro i hi j hj h
      exact hinj i (List.mem_range.mp hi) j (List.mem_range.mp hj) h)
    (by
      intro x y z hxy hyz
      rw [hdiv] at hxy hyz ⊢
      exact fun k => le_trans (hyz k) (hxy k))
    (fun x => (hdiv x x).mpr (fun _ => le_refl _))
  refine ⟨red', a', lml', e, h1, ?_, ?_, ?_, h5⟩
  · intro i hi hr
    obtain ⟨j, hj, hd⟩ := h2 i hi hr
    exact ⟨j, hj, (hdiv _ _).mp hd⟩
  · intro i hi j hj hij hd
    have := h3 i hi j hj hij
    rw [(hdiv _ _).mpr hd] at this
    exact absurd this (by simp)
  · intro i hi
    refine ⟨(h4 i hi).1, (h4 i hi).2, ?_⟩
    have : a' i ∈ (List.range lml).map a :=
      h1.subset (List.mem_map.mpr ⟨i, List.mem_range.mpr hi, rfl⟩)
    obtain ⟨k, hk, ek⟩ := List.mem_map.mp this
    rw [← ek]
    exact hmask k (List.mem_range.mp hk)

/-- C22: the filtering at the end of the reduction of the final basis: if the rows come out with increasing
leading monomials from the last one to the first one (they are the rows of an echelon form), the kept
elements are pairwise incomparable for divisibility and every leading monomial is divisible by a kept one. -/
theorem C22_keep_reduced {n : Nat} (hn : 1 ≤ n) (nev : Nat) (hnev : nev ≤ n) (dm : Nat → Nat)
    (lm : Nat → Fin n → ℕ) (buf : Nat → Nat → Nat) (hdeg : ∀ b, ∑ i, lm b i < 65536)
    (lt : (Fin n → ℕ) → (Fin n → ℕ) → Prop) (A : Admissible lt) (ld : Nat)
    (hord : ∀ i j, i < j → j < ld → lt (lm j) (lm i)) :
    let p : Params := { ndv := initNdv n, bpv := initBpv n, dv := initDv n nev, dm := dm }
    let ev := fun b => setEv n nev (ext (lm b)) (buf b)
    let div := fun b x => checkDivision (evl n nev) (mask p (ev b)) (mask p (ev x)) (ev b) (ev x)
    let kept := keepReduced div ld
    (∀ x ∈ kept, x < ld) ∧ kept.Nodup ∧
    (∀ i < ld, ∃ j ∈ kept, ∀ k, lm j k ≤ lm i k) ∧
    (∀ i ∈ kept, ∀ j ∈ kept, i ≠ j → ¬ ∀ k, lm j k ≤ lm i k) ∧
    kept.Pairwise (fun x y => lt (lm x) (lm y)) := by
  intro p ev div kept
  have hdiv : ∀ b x, div b x = true ↔ ∀ k, lm x k ≤ lm b k := fun b x =>
    C10_divides hn nev hnev dm (lm b) (lm x) (buf b) (buf x) (hdeg b) (hdeg x)
  have hpl : ((List.range ld).map fun i => ld - 1 - i).Pairwise (fun x y => lt (lm x) (lm y)) := by
    rw [List.pairwise_map]
    refine List.Pairwise.imp_of_mem ?_ (List.pairwise_lt_range (n := ld))
    intro a b ha hb hab
    have := List.mem_range.mp ha
    have := List.mem_range.mp hb
    exact hord _ _ (by omega) (by omega)
  have hle : ∀ x y : Fin n → ℕ, (∀ k, y k ≤ x k) → ¬ lt x y := by
    intro x y h hl
    rcases A.total 0 (x - y) with g | g | g
    · have := A.mul _ _ y g
      rw [zero_add] at this
      have e : x - y + y = x := by
        funext k; simp only [Pi.add_apply, Pi.sub_apply]; have := h k; omega
      rw [e] at this
      exact A.irrefl _ (A.trans _ _ _ this hl)
    · have : x = y := by
        funext k
        have := congrFun g k
        simp only [Pi.zero_apply, Pi.sub_apply] at this
        have := h k; omega
      rw [this] at hl
      exact A.irrefl _ hl
    · by_cases h0 : x - y = 0
      · rw [h0] at g; exact A.irrefl _ g
      · exact A.irrefl _ (A.trans _ _ _ g (A.one_lt _ h0))
  obtain ⟨new, e, hsub, hpw, hcov⟩ := keepLoop_spec div (fun x y => lt (lm x) (lm y))
    (fun x y h => hle _ _ ((hdiv x y).mp h))
    (fun x => (hdiv x x).mpr (fun _ => le_refl _)) ((List.range ld).map fun i => ld - 1 - i) [] hpl
    (by simp) List.Pairwise.nil
  have ek : kept = new := by
    change keepReduced div ld = new
    unfold keepReduced
    rw [e]; rfl
  have e' : keepLoop div ((List.range ld).map fun i => ld - 1 - i) [] = new := by rw [e]; rfl
  rw [e'] at hpw hcov
  have hlt : new.Pairwise (fun x y => lt (lm x) (lm y)) := hpl.sublist hsub
  rw [ek]
  refine ⟨?_, ?_, ?_, ?_, hlt⟩
  · intro x hx
    obtain ⟨i, hi, rfl⟩ := List.mem_map.mp (hsub.subset hx)
    have := List.mem_range.mp hi
    omega
  · refine hlt.imp ?_
    intro a b h he
    rw [he] at h
    exact A.irrefl _ h
  · intro i hi
    obtain ⟨y, hy, hd⟩ := hcov i (List.mem_map.mpr ⟨ld - 1 - i, List.mem_range.mpr (by omega), by omega⟩)
    exact ⟨y, hy, (hdiv _ _).mp hd⟩
  · intro i hi j hj hij hd
    have hsym : ∀ x ∈ new, ∀ y ∈ new, x ≠ y → div y x = false ∧ div x y = false := by
      intro x hx y hy hxy
      have : Std.Symm (fun x y => div y x = false ∧ div x y = false) := ⟨fun _ _ h => ⟨h.2, h.1⟩⟩
      exact hpw.forall hx hy hxy
    have := (hsym i hi j hj hij).2
    rw [(hdiv _ _).mpr hd] at this
    exact absurd this (by simp)

/-- Leading monomials `x^2, xy, x^2y, xy`: the first `xy` and `x^2y` are removed. -/
def exLm : Nat → Fin 2 → ℕ
  | 0 => ![2, 0]
  | 1 => ![1, 1]
  | 2 => ![2, 1]
  | 3 => ![1, 1]
  | _ => ![0, 0]

example : (∀ i < 4, ∀ j < 4, (fun i => ((0 : Nat), i)) i = (fun i => ((0 : Nat), i)) j → i = j) ∧
    (∃ red' a' , removeRedundant (fun b x => decide (∀ k, exLm x k ≤ exLm b k)) 4 (fun i => ((0 : Nat), i))
      (fun _ => false) = some (red', a', 2) ∧ a' 0 = (0, 0) ∧ a' 1 = (0, 3)) := by
  refine ⟨by intro i _ j _ h; simpa using h, _, _, rfl, by decide, by decide⟩

/-- Leading monomials in decreasing DRL order `x^2y, x^2, xy`: kept are `xy` and `x^2`. -/
def exLm2 : Nat → Fin 2 → ℕ
  | 0 => ![2, 1]
  | 1 => ![2, 0]
  | 2 => ![1, 1]
  | _ => ![0, 0]

example : (∀ i j, i < j → j < 3 → Drl (exLm2 j) (exLm2 i)) ∧
    keepReduced (fun b x => decide (∀ k, exLm2 x k ≤ exLm2 b k)) 3 = [2, 1] := by
  refine ⟨?_, by decide⟩
  have d1 : Drl (exLm2 1) (exLm2 0) := Or.inl (by decide)
  have d2 : Drl (exLm2 2) (exLm2 1) := Or.inr ⟨by decide, 1, by decide, by decide, by decide⟩
  have d3 : Drl (exLm2 2) (exLm2 0) := Or.inl (by decide)
  intro i j hij hj
  have h : (i = 0 ∧ j = 1) ∨ (i = 1 ∧ j = 2) ∨ (i = 0 ∧ j = 2) := by omega
  rcases h with ⟨rfl, rfl⟩ | ⟨rfl, rfl⟩ | ⟨rfl, rfl⟩
  · exact d1
  · exact d2
  · exact d3

end Verif.Props
