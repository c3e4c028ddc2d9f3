import Mathlib.Data.List.Basic
import Mathlib.Data.List.Range
import Mathlib.Data.List.Perm.Basic
import Mathlib.Data.List.GetD
import Mathlib.Logic.Function.Basic
import Mathlib.Tactic.Linarith

/-!
Hash to column conversion of the F4 matrices and back.
Source: src/neogb/convert.c 298-430 and 447-465.
-/
namespace Verif.Convert

/-- convert.c 326-329, 332: the column to hash map before sorting is `1, 2, ..., eld-1` (entry 0 of a
hash table is never used). -/
def hcmInit (eld : Nat) : List Nat := List.range' 1 (eld - 1)

/-- convert.c 327-336: the counter `k` of entries with index value 2 (known pivots); it becomes
`mat->ncl` (349). -/
def ncl (eld : Nat) (idx : Nat → Nat) : Nat :=
  (hcmInit eld).foldl (fun k i => if idx i = 2 then k + 1 else k) 0

/-- convert.c 350: `mat->ncr = esld - 1 - mat->ncl`. -/
def ncr (eld : Nat) (idx : Nat → Nat) : Nat := eld - 1 - ncl eld idx

/-- convert.c 337: `sort_r` is the C library's sort. Every permutation of the array that is in order for
the comparison function is an allowed outcome (the comparison `cmp` is called with hash table positions). -/
structure SortedBy (cmp : Nat → Nat → Int) (inp out : List Nat) : Prop where
  perm : out.Perm inp
  sorted : out.Pairwise fun a b => cmp a b ≤ 0

/-- convert.c 357-359: the loop `hds[hcm[k]].idx = k`, from position `k` on. -/
def setIdx : List Nat → Nat → (Nat → Nat) → (Nat → Nat)
  | [], _, idx => idx
  | h :: hcm, k, idx => setIdx hcm (k + 1) (Function.update idx h k)

/-- convert.c 370-375 and 389-394: the part of the row loop that handles four entries per turn; `none` if
it would run over the end of the row. -/
def unrolled (f : Nat → Nat) : List Nat → Option (List Nat)
  | [] => some []
  | a :: b :: c :: d :: r => (unrolled f r).map fun r' => f a :: f b :: f c :: f d :: r'
  | _ => none

/-- convert.c 363-376 and 382-395: one matrix row; `os` is the stored `PRELOOP` value, `row` the entries
from `OFFSET` on. -/
def convRow (idx : Nat → Nat) (os : Nat) (row : List Nat) : Option (List Nat) :=
  (unrolled idx (row.drop os)).map fun r => (row.take os).map idx ++ r

/-- convert.c 457-461: `bs->hm[i][j] = hcm[bs->hm[i][j]]`; `none` for a column outside the array. -/
def backRow (hcm : List Nat) (row : List Nat) : Option (List Nat) := row.mapM fun c => hcm[c]?

/-! ### Facts -/

theorem mem_hcmInit (eld i : Nat) : i ∈ hcmInit eld ↔ 1 ≤ i ∧ i < eld := by
  unfold hcmInit
  rw [List.mem_range'_1]
  omega

theorem nodup_hcmInit (eld : Nat) : (hcmInit eld).Nodup := List.nodup_range'

theorem length_hcmInit (eld : Nat) : (hcmInit eld).length = eld - 1 := by simp [hcmInit]

theorem foldl_count (P : Nat → Prop) [DecidablePred P] (l : List Nat) (k : Nat) :
    l.foldl (fun k i => if P i then k + 1 else k) k = k + l.countP (fun i => decide (P i)) := by
  induction l generalizing k with
  | nil => simp
  | cons a l ih =>
    rw [List.foldl_cons, ih, List.countP_cons]
    by_cases h : P a <;> (simp [h]; try omega)

theorem ncl_eq (eld : Nat) (idx : Nat → Nat) :
    ncl eld idx = (hcmInit eld).countP (fun i => decide (idx i = 2)) := by
  unfold ncl
  rw [foldl_count (fun i => idx i = 2)]
  omega

theorem setIdx_not_mem : ∀ (hcm : List Nat) (k : Nat) (idx : Nat → Nat) (h : Nat), h ∉ hcm →
    setIdx hcm k idx h = idx h := by
  intro hcm
  induction hcm with
  | nil => intros; rfl
  | cons a hcm ih =>
    intro k idx h hh
    simp only [setIdx]
    rw [ih _ _ _ (fun hm => hh (List.mem_cons_of_mem _ hm)), Function.update_of_ne]
    intro he
    exact hh (by rw [he]; exact List.mem_cons_self)

theorem setIdx_getElem : ∀ (hcm : List Nat) (k : Nat) (idx : Nat → Nat), hcm.Nodup →
    ∀ (i : Nat) (hi : i < hcm.length), setIdx hcm k idx hcm[i] = k + i := by
  intro hcm
  induction hcm with
  | nil => intro _ _ _ i hi; simp at hi
  | cons a hcm ih =>
    intro k idx hn i hi
    simp only [setIdx]
    obtain ⟨h1, h2⟩ := List.nodup_cons.mp hn
    cases i with
    | zero => simp [setIdx_not_mem _ _ _ _ h1]
    | succ i =>
      simp only [List.getElem_cons_succ]
      rw [ih _ _ h2]
      omega

theorem unrolled_eq (f : Nat → Nat) : ∀ (m : Nat) (row : List Nat), row.length = 4 * m →
    unrolled f row = some (row.map f) := by
  intro m
  induction m with
  | zero =>
    intro row h
    have : row = [] := List.length_eq_zero_iff.mp (by omega)
    subst this; rfl
  | succ m ih =>
    intro row h
    match row, h with
    | a :: b :: c :: d :: r, h =>
      simp only [unrolled, List.map_cons]
      rw [ih r (by simp at h; omega)]
      rfl
    | [], h => simp at h
    | [_], h => simp at h; omega
    | [_, _], h => simp at h; omega
    | [_, _, _], h => simp at h; omega

theorem convRow_eq (idx : Nat → Nat) (os : Nat) (row : List Nat) (h : os = row.length % 4) :
    convRow idx os row = some (row.map idx) := by
  unfold convRow
  rw [unrolled_eq idx (row.length / 4) (row.drop os) (by rw [List.length_drop]; omega)]
  simp only [Option.map_some, Option.some.injEq]
  rw [← List.map_append, List.take_append_drop]

theorem backRow_map (hcm : List Nat) (idx : Nat → Nat) (row : List Nat)
    (h : ∀ x ∈ row, hcm[idx x]? = some x) : backRow hcm (row.map idx) = some row := by
  unfold backRow
  induction row with
  | nil => rfl
  | cons a row ih =>
    rw [List.map_cons, List.mapM_cons, h a List.mem_cons_self,
      ih (fun x hx => h x (List.mem_cons_of_mem _ hx))]
    rfl

/-- What the conversion achieves, for a comparison function `cmp` on table positions that puts pivots
(index value 2) before non pivots (index value 1) and, within a class, larger entries first. -/
theorem columns_spec (eld : Nat) (idx : Nat → Nat) (cmp : Nat → Nat → Int) (gt : Nat → Nat → Prop)
    (hcm : List Nat) (hs : SortedBy cmp (hcmInit eld) hcm)
    (hidx : ∀ i, 1 ≤ i → i < eld → idx i = 1 ∨ idx i = 2)
    (hcls : ∀ a b, 1 ≤ a → a < eld → 1 ≤ b → b < eld → idx a < idx b → 0 < cmp a b)
    (hcmp : ∀ a b, 1 ≤ a → a < eld → 1 ≤ b → b < eld → idx a = idx b → a ≠ b →
      cmp a b ≤ 0 → gt a b)
    (hgt : ∀ a b, gt a b → ¬ gt b a) :
    let col := setIdx hcm 0 idx
    hcm.length = eld - 1 ∧ ncl eld idx + ncr eld idx = eld - 1 ∧
    (∀ h, 1 ≤ h → h < eld → col h < eld - 1 ∧ hcm[col h]? = some h) ∧
    (∀ c, c < eld - 1 → ∃ h, 1 ≤ h ∧ h < eld ∧ col h = c) ∧
    (∀ h, 1 ≤ h → h < eld → (col h < ncl eld idx ↔ idx h = 2)) ∧
    (∀ a b, 1 ≤ a → a < eld → 1 ≤ b → b < eld → idx a = idx b → (col a < col b ↔ gt a b)) := by
  intro col
  have hlen : hcm.length = eld - 1 := by rw [hs.perm.length_eq, length_hcmInit]
  have hnd : hcm.Nodup := hs.perm.nodup_iff.mpr (nodup_hcmInit eld)
  have hmem : ∀ h, h ∈ hcm ↔ 1 ≤ h ∧ h < eld := fun h => by rw [hs.perm.mem_iff, mem_hcmInit]
  have hcol : ∀ (i : Nat) (hi : i < hcm.length), col hcm[i] = i := by
    intro i hi
    have := setIdx_getElem hcm 0 idx hnd i hi
    simpa using this
  have hex : ∀ h, 1 ≤ h → h < eld → ∃ (hi : col h < hcm.length), hcm[col h] = h := by
    intro h h1 h2
    obtain ⟨i, hi, rfl⟩ := List.mem_iff_getElem.mp ((hmem h).mpr ⟨h1, h2⟩)
    rw [hcol i hi]
    exact ⟨hi, rfl⟩
  have hpw := List.pairwise_iff_getElem.mp hs.sorted
  have hcnt : ncl eld idx = hcm.countP (fun i => decide (idx i = 2)) := by
    rw [ncl_eq, hs.perm.countP_eq]
  -- strictly smaller column implies not smaller class
  have hmono : ∀ a b, 1 ≤ a → a < eld → 1 ≤ b → b < eld → col a < col b →
      cmp a b ≤ 0 := by
    intro a b ha1 ha2 hb1 hb2 hlt
    obtain ⟨i1, e1⟩ := hex a ha1 ha2
    obtain ⟨i2, e2⟩ := hex b hb1 hb2
    have := hpw _ _ i1 i2 hlt
    rwa [e1, e2] at this
  have hclass : ∀ a b, 1 ≤ a → a < eld → 1 ≤ b → b < eld → col a < col b → idx b ≤ idx a := by
    intro a b ha1 ha2 hb1 hb2 hlt
    by_contra hc
    have := hcls a b ha1 ha2 hb1 hb2 (by omega)
    have := hmono a b ha1 ha2 hb1 hb2 hlt
    omega
  refine ⟨hlen, ?_, ?_, ?_, ?_, ?_⟩
  · have : ncl eld idx ≤ eld - 1 := by rw [hcnt, ← hlen]; exact List.countP_le_length
    unfold ncr; omega
  · intro h h1 h2
    obtain ⟨hi, e⟩ := hex h h1 h2
    exact ⟨by rw [← hlen]; exact hi, by rw [List.getElem?_eq_getElem hi, e]⟩
  · intro c hc
    have hc' : c < hcm.length := by omega
    have := (hmem hcm[c]).mp (List.getElem_mem hc')
    exact ⟨hcm[c], this.1, this.2, hcol c hc'⟩
  · intro h h1 h2
    -- pivots occupy a prefix of length countP
    obtain ⟨hi, e⟩ := hex h h1 h2
    have htd := List.take_append_drop (col h) hcm
    constructor
    · intro hlt
      by_contra hne
      have hone : idx h = 1 := by rcases hidx h h1 h2 with g | g; exact g; exact absurd g hne
      have hzero : (hcm.drop (col h)).countP (fun i => decide (idx i = 2)) = 0 := by
        rw [List.countP_eq_zero]
        intro x hx
        obtain ⟨j, hj, rfl⟩ := List.mem_iff_getElem.mp hx
        rw [List.length_drop] at hj
        rw [List.getElem_drop]
        have hx' := (hmem hcm[col h + j]).mp (List.getElem_mem (by omega))
        by_cases hj0 : j = 0
        · subst hj0
          simp [e, hone]
        · have hx2 := hclass h hcm[col h + j] h1 h2 hx'.1 hx'.2 (by rw [hcol _ (by omega)]; omega)
          simp only [decide_eq_true_eq]
          omega
      have hcc : hcm.countP (fun i => decide (idx i = 2)) ≤ col h := by
        conv_lhs => rw [← htd]
        rw [List.countP_append, hzero]
        have : ((hcm.take (col h)).countP (fun i => decide (idx i = 2))) ≤ (hcm.take (col h)).length :=
          List.countP_le_length
        rw [List.length_take] at this
        omega
      omega
    · intro h2'
      have hall : (hcm.take (col h + 1)).countP (fun i => decide (idx i = 2)) =
          (hcm.take (col h + 1)).length := by
        rw [List.countP_eq_length]
        intro x hx
        obtain ⟨j, hj, rfl⟩ := List.mem_iff_getElem.mp hx
        rw [List.length_take] at hj
        rw [List.getElem_take]
        have hx' := (hmem hcm[j]).mp (List.getElem_mem (by omega))
        by_cases hj0 : j = col h
        · subst hj0
          simp [e, h2']
        · have hx2 := hclass hcm[j] h hx'.1 hx'.2 h1 h2 (by rw [hcol _ (by omega)]; omega)
          rcases hidx _ hx'.1 hx'.2 with g | g
          · omega
          · simp [g]
      have hsub : ((hcm.take (col h + 1)).countP (fun i => decide (idx i = 2))) ≤
          hcm.countP (fun i => decide (idx i = 2)) := (List.take_sublist _ _).countP_le
      rw [hall, List.length_take, ← hcnt] at hsub
      omega
  · intro a b ha1 ha2 hb1 hb2 hab
    obtain ⟨i1, e1⟩ := hex a ha1 ha2
    obtain ⟨i2, e2⟩ := hex b hb1 hb2
    have hne : ∀ {x y : Nat}, (1 ≤ x ∧ x < eld) → (1 ≤ y ∧ y < eld) → col x < col y → x ≠ y := by
      intro x y _ _ hlt he
      rw [he] at hlt
      omega
    constructor
    · intro hlt
      exact hcmp a b ha1 ha2 hb1 hb2 hab (hne ⟨ha1, ha2⟩ ⟨hb1, hb2⟩ hlt) (hmono a b ha1 ha2 hb1 hb2 hlt)
    · intro hg
      rcases Nat.lt_trichotomy (col a) (col b) with g | g | g
      · exact g
      · exfalso
        have : a = b := by
          rw [← e1, ← e2]
          congr 1
        subst this
        exact hgt a a hg hg
      · exfalso
        exact hgt a b hg
          (hcmp b a hb1 hb2 ha1 ha2 hab.symm (hne ⟨hb1, hb2⟩ ⟨ha1, ha2⟩ g) (hmono b a hb1 hb2 ha1 ha2 g))

end Verif.Convert
