import Verif.Echelon

/-! Model of the dense variants of the linear algebra, la_ff_32.c: `exact_sparse_dense_linear_algebra_ff_32`
4105-4150 (option 1) with `sparse_AB_CD_linear_algebra_ff_32` 3271-3350, `exact_dense_linear_algebra_ff_32`
3389-3500, `interreduce_dense_matrix_ff_32` 3352-3387 and `convert_to_sparse_matrix_rows_ff_32` 3822-3886.

A dense row of the code is an array that starts at some column; the model writes it as the list of all its
columns with their entries (zeros included).  The arrays `nps`, `dm` of the code are indexed from 0 to
`ncr - 1` and belong to the columns `ncl`, …, `ncols - 1`; the model uses the column as index. -/

namespace Verif.DenseLA
open Verif.RowReduce Verif.Normalize Verif.Echelon

/-! ### Reduction of one dense row -/

/-- Body of the column loops of `reduce_dense_row_by_old_pivots_{17,31}_bit` (la_ff_32.c 2053-2080, 2117-2152:
columns left of `ncl`), `reduce_dense_row_by_dense_new_pivots_{17,31}_bit` (2189-2216, 2250-2279: columns from
`ncl` on) and of the two steps of `reduce_dense_row_by_all_pivots_{17,31}_bit` (1853-1913, 1951-2016).  Left of
`ncl` columns without pivot are skipped and the eliminated entry is set to 0; from `ncl` on columns without
pivot are counted and the eliminated entry is left as the elimination leaves it. -/
def dcolStep (P : Par) (pivs : Nat → Option Row) (s : St) (i : Nat) : Option St :=
  let x := if s.dr i ≠ 0 then Int.tmod (s.dr i) P.p else s.dr i
  let dr := Function.update s.dr i x
  if x = 0 then some { s with dr := dr }
  else match pivs i with
    | none =>
      if i < P.ncl then some { s with dr := dr }
      else some { dr := dr, np := if s.np = none then some i else s.np, k := s.k + 1 }
    | some r => (P.elim x r dr).map fun dr' => { s with dr := if i < P.ncl then Function.update dr' i 0 else dr' }

/-- The loop over `cnt` columns from `i` on. -/
def dLoop (P : Par) (pivs : Nat → Option Row) : Nat → Nat → St → Option St
  | 0, _, s => some s
  | cnt + 1, i, s => (dcolStep P pivs s i).bind (dLoop P pivs cnt (i + 1))

/-- `dr[i] = dr[i] % mod` for all columns from `c` on, la_ff_32.c 2223-2228. -/
def dwrite (P : Par) (c : Nat) (dr : Nat → Int) : Nat → Int := fun j =>
  if c ≤ j ∧ j < P.ncols then (if dr j ≠ 0 then Int.tmod (dr j) P.p else dr j) else dr j

/-- The dense row from column `c` on, `row[i-c] = (cf32_t)dr[i]`. -/
def denseRow (P : Par) (c : Nat) (dr : Nat → Int) : Row :=
  (List.range' c (P.ncols - c)).map fun j => (j, (dr j % 2 ^ 32).toNat)

/-- The end of the reduction, la_ff_32.c 2217-2235 (also 1914-1933): `some none` is `*pc = -1; return NULL`;
otherwise the row from the first column without pivot on, normalised, that column and the content of `dr`.
`normalize_dense_matrix_row_ff_32` (30-54) multiplies all entries with the inverse of the first one and sets
the first one to 1, as `normRow` does. -/
def dfinish (P : Par) (s : St) : Option (Option (Nat × Row × (Nat → Int))) :=
  if s.k = 0 then some none
  else match s.np with
    | none => none
    | some c => (normRow P.w P.out P.p (denseRow P c (dwrite P c s.dr))).map fun r => some (c, r, dwrite P c s.dr)

/-! ### Phase one: reduction by the known pivots -/

/-- One row of `sparse_AB_CD_linear_algebra_ff_32`, la_ff_32.c 3299-3325 with
`reduce_dense_row_by_old_pivots` 2040-2174: `some none` is `NULL`. -/
def oldRow (P : Par) (pivs0 : Nat → Option Row) : Row → Option (Option Row)
  | [] => none
  | t :: r => (dLoop P pivs0 (P.ncl - t.1) t.1 { dr := fill (t :: r), np := none, k := 0 }).map fun s =>
      if (denseRow P P.ncl (dwrite P P.ncl s.dr)).all (fun t => t.2 = 0) then none
      else some (denseRow P P.ncl (dwrite P P.ncl s.dr))

/-- All rows; the rows are independent of each other, so the parallel loop has one result.  The `NULL` rows
are removed, la_ff_32.c 3337-3342. -/
def abcd (P : Par) (pivs0 : Nat → Option Row) : List Row → Option (List Row)
  | [] => some []
  | r :: rows => (oldRow P pivs0 r).bind fun d => (abcd P pivs0 rows).map fun ds => d.toList ++ ds

/-! ### Phase two: elimination of the dense rows -/

/-- The rows with a new first nonzero column become pivots, the others are to be reduced,
la_ff_32.c 3407-3432.  A row of zeros is read past its end: `none`. -/
def splitRows (P : Par) : List Row → (Nat → Option Row) → Option ((Nat → Option Row) × List Row)
  | [], nps => some (nps, [])
  | r :: rows, nps =>
    match r.dropWhile (fun t => t.2 = 0) with
    | [] => none
    | t :: q => match nps t.1 with
      | none => (normRow P.w P.out P.p (t :: q)).bind fun r' => splitRows P rows (Function.update nps t.1 (some r'))
      | some _ => (splitRows P rows nps).map fun y => (y.1, r :: y.2)

/-- State of a thread: `red lost i s` in the column loop before column `i`; `cas` before compare-and-swap at
column `c` with the row `r`; `lost` (a ghost) is the last column where another thread was faster. -/
inductive DTh where
  | red (lost : Option Nat) (i : Nat) (s : St)
  | cas (lost : Option Nat) (dr : Nat → Int) (c : Nat) (r : Row)
  | zero
  | won

/-- One step of a thread, la_ff_32.c 3463-3475 and 3764-3777.  `back c` is the column where the reduction
starts again when compare-and-swap failed at column `c`. -/
def dthStep (P : Par) (back : Nat → Nat) (pivs : Nat → Option Row) : DTh → Option (DTh × (Nat → Option Row))
  | .red lost i s =>
    if i < P.ncols then (dcolStep P pivs s i).map fun s' => (.red lost (i + 1) s', pivs)
    else (dfinish P s).map fun
      | none => (.zero, pivs)
      | some (c, r, dr) => (.cas lost dr c r, pivs)
  | .cas _ dr c r => match pivs c with
    | none => some (.won, Function.update pivs c (some r))
    | some _ => some (.red (some c) (back c) { dr := dr, np := none, k := 0 }, pivs)
  | .zero => some (.zero, pivs)
  | .won => some (.won, pivs)

def DTh.finished : DTh → Bool
  | .zero => true
  | .won => true
  | _ => false

structure DConf (n : Nat) where
  pivs : Nat → Option Row
  th : Fin n → DTh

inductive DStep (P : Par) (back : Nat → Nat) {n : Nat} : DConf n → DConf n → Prop
  | mk (c : DConf n) (t : Fin n) (x : DTh) (pivs' : Nat → Option Row) :
      (c.th t).finished = false → dthStep P back c.pivs (c.th t) = some (x, pivs') →
      DStep P back c { pivs := pivs', th := Function.update c.th t x }

/-- Executions: any interleaving. -/
inductive DExec (P : Par) (back : Nat → Nat) {n : Nat} : Nat → DConf n → DConf n → Prop
  | refl (c : DConf n) : DExec P back 0 c c
  | step {m : Nat} {c c' c'' : DConf n} : DExec P back m c c' → DStep P back c' c'' → DExec P back (m + 1) c c''

/-- Start of the parallel phase of `exact_dense_linear_algebra_ff_32`: the rows `tbr` are copied to `drl`
(la_ff_32.c 3446-3462), the reduction starts at the first column right of the known pivots. -/
def dinit (P : Par) (nps : Nat → Option Row) (tbr : List Row) : DConf tbr.length :=
  { pivs := nps, th := fun t => .red none P.ncl { dr := fill (tbr.get t), np := none, k := 0 } }

/-! ### Interreduction and conversion -/

/-- One pass of `interreduce_dense_matrix_ff_32`, la_ff_32.c 3361-3382.  `dm[k] = reduce(…, &k, …)` leaves
open which `k` is used on the left; if the call changed it the model gives `none`. -/
def dinterStep (P : Par) (pivs : Nat → Option Row) (k : Nat) : Option (Nat → Option Row) :=
  match pivs k with
  | none => some pivs
  | some r => (dLoop P (Function.update pivs k none) (P.ncols - k) k { dr := fill r, np := none, k := 0 }).bind fun s =>
      (dfinish P s).bind fun
        | none => none
        | some (c, r', _) => if c = k then some (Function.update pivs k (some r')) else none

def dinterLoop (P : Par) : Nat → (Nat → Option Row) → Option (Nat → Option Row)
  | 0, pivs => some pivs
  | m + 1, pivs => (dinterLoop P m pivs).bind fun pivs => dinterStep P pivs (P.ncols - 1 - m)

/-- `interreduce_dense_matrix_ff_32`: the array of dense rows belongs to the columns from `ncl` on. -/
def dinterreduce (P : Par) (pivs : Nat → Option Row) : Option (Nat → Option Row) :=
  dinterLoop P (P.ncols - P.ncl) (fun c => if c < P.ncl then none else pivs c)

/-- `convert_to_sparse_matrix_rows_ff_32`, la_ff_32.c 3822-3886: the nonzero entries with their columns. -/
def toSparse (dm : Nat → Option Row) : Nat → Option Row := fun c => (dm c).map fun r => r.filter fun t => t.2 ≠ 0

/-! ### Static facts -/

/-- What the dense variants need of the parameters in addition: a row may be reduced again although
eliminated entries are `p` instead of 0. -/
structure DParOk (P : Par) (Ok : Nat → (Nat → Int) → Prop) : Prop extends ParOk P Ok where
  init' : ∀ dr : Nat → Int, (∀ c, 0 ≤ dr c ∧ dr c ≤ (P.p : Int)) → Ok 0 dr
  piv : ∀ i r (x : Int) dr dr', PivRow P.p P.ncols i r → dr i = x → P.elim x r dr = some dr' →
    0 ≤ dr' i ∧ dr' i ≤ P.p

theorem DParOk.ok_of_zero {P : Par} {Ok : Nat → (Nat → Int) → Prop} (hP : DParOk P Ok) {dr : Nat → Int}
    (h : Ok 0 dr) : ∀ t, Ok t dr
  | 0 => h
  | t + 1 => hP.elim.mono _ _ (hP.ok_of_zero h t)

/-! ### One column -/

/-- What one pass of the column loop does. -/
structure DStepOk (P : Par) (pivs : Nat → Option Row) (Ok : Nat → (Nat → Int) → Prop) (i : Nat) (s s' : St) :
    Prop where
  ok : Ok (i + 1) s'.dr
  span : vec P.p s'.dr - vec P.p s.dr ∈ pivSpan P.p pivs i (i + 1)
  below : ∀ c, c < i → s'.dr c = s.dr c
  above : ∀ c, P.ncols ≤ c → s'.dr c = s.dr c
  range : 0 ≤ s'.dr i ∧ s'.dr i ≤ P.p
  same : vec P.p s.dr i = 0 → vec P.p s'.dr = vec P.p s.dr
  alt : (vec P.p s'.dr i = 0 ∧ s'.np = s.np ∧ s'.k = s.k) ∨
    (pivs i = none ∧ P.ncl ≤ i ∧ 0 < s'.dr i ∧ s'.dr i < P.p ∧ vec P.p s'.dr = vec P.p s.dr ∧
      s'.np = (if s.np = none then some i else s.np) ∧ s'.k = s.k + 1)

theorem dcolStep_spec {P : Par} {Ok : Nat → (Nat → Int) → Prop} (hP : DParOk P Ok) {pivs : Nat → Option Row}
    {s : St} {i : Nat} (hpiv : ∀ r, pivs i = some r → PivRow P.p P.ncols i r) (hok : Ok i s.dr) (hi : i < P.ncols)
    (hleft : i < P.ncl → pivs i ≠ none) : ∃ s', dcolStep P pivs s i = some s' ∧ DStepOk P pivs Ok i s s' := by
  have hE := hP.elim
  have hp := hP.prime.pos
  have h0 := hE.nonneg i s.dr i hok
  have hpp : (0 : Int) < P.p := by exact_mod_cast hp
  have hx : (if s.dr i ≠ 0 then Int.tmod (s.dr i) P.p else s.dr i) = s.dr i % P.p := by
    split_ifs with h
    · exact Int.tmod_eq_emod_of_nonneg h0
    · rw [not_not.mp h, Int.zero_emod]
  unfold dcolStep
  simp only [hx]
  have hx0 : 0 ≤ s.dr i % P.p := Int.emod_nonneg _ hpp.ne'
  have hx1 : s.dr i % P.p < P.p := Int.emod_lt_of_pos _ hpp
  have hx2 : s.dr i % P.p ≤ s.dr i := by
    have := Int.emod_add_mul_ediv (s.dr i) P.p
    have h3 : 0 ≤ s.dr i / P.p := Int.ediv_nonneg h0 hpp.le
    nlinarith
  have hok' := hE.upd i s.dr i _ hok hx0 hx2
  have hvec : vec P.p (Function.update s.dr i (s.dr i % P.p)) = vec P.p s.dr := by
    rw [vec_update]
    have : (((s.dr i % P.p - s.dr i : Int)) : ZMod P.p) = 0 := by
      rw [Int.cast_sub, ZMod.intCast_mod, sub_self]
    rw [this, Pi.single_zero, add_zero]
  have hbel : ∀ c, c ≠ i → Function.update s.dr i (s.dr i % P.p) c = s.dr c :=
    fun c hc => Function.update_of_ne hc _ _
  have hdvd : vec P.p s.dr i = 0 → s.dr i % P.p = 0 := by
    intro h
    unfold vec at h
    rw [ZMod.intCast_zmod_eq_zero_iff_dvd] at h
    exact Int.emod_eq_zero_of_dvd h
  by_cases hz : s.dr i % P.p = 0
  · rw [if_pos hz]
    refine ⟨_, rfl, ?_⟩
    refine ⟨hE.mono _ _ hok', ?_, fun c hc => hbel c (by omega), fun c hc => hbel c (by omega), ?_, fun _ => hvec,
      Or.inl ⟨?_, rfl, rfl⟩⟩
    · simp only [hvec, sub_self]; exact Submodule.zero_mem _
    · simp only [Function.update_self]; exact ⟨hx0, hx1.le⟩
    · simp only [vec, Function.update_self, hz]; simp
  · rw [if_neg hz]
    rcases hpi : pivs i with _ | r
    · have hni : ¬ i < P.ncl := fun h => hleft h hpi
      simp only []
      rw [if_neg hni]
      refine ⟨_, rfl, hE.mono _ _ hok', ?_, fun c hc => hbel c (by omega), fun c hc => hbel c (by omega), ?_,
        fun _ => hvec, Or.inr ⟨hpi, by omega, ?_, ?_, hvec, rfl, rfl⟩⟩
      · simp only [hvec, sub_self]; exact Submodule.zero_mem _
      · simp only [Function.update_self]; exact ⟨hx0, hx1.le⟩
      · simp only [Function.update_self]; omega
      · simp only [Function.update_self]; exact hx1
    · have hr := hpiv r hpi
      obtain ⟨dr', h1, h2, h3, h4, h5⟩ := hE.step i _ i r (s.dr i % P.p) hok' hi hr
        (lt_of_le_of_ne hx0 (Ne.symm hz)) hx1
      have hrange := hP.piv i r _ _ dr' hr (Function.update_self _ _ _) h1
      simp only [h1, Option.map_some]
      have hdi : ((dr' i : Int) : ZMod P.p) = 0 := by
        have := congrFun h3 i
        rw [hvec, Pi.sub_apply, Pi.smul_apply, hr.at_head, smul_eq_mul, mul_one] at this
        unfold vec at this
        rw [this, ZMod.intCast_mod, sub_self]
      have hvec2 : vec P.p (if i < P.ncl then Function.update dr' i 0 else dr') = vec P.p dr' := by
        split_ifs
        · rw [vec_update, zero_sub, Int.cast_neg, hdi, neg_zero, Pi.single_zero, add_zero]
        · rfl
      have hoth : ∀ c, c ≠ i → (if i < P.ncl then Function.update dr' i 0 else dr') c = dr' c := by
        intro c hc
        split_ifs
        · exact Function.update_of_ne hc _ _
        · rfl
      refine ⟨_, rfl, ?_, ?_, ?_, ?_, ?_, fun h => absurd (hdvd h) hz, Or.inl ⟨?_, rfl, rfl⟩⟩
      · simp only []
        split_ifs
        · exact hE.upd _ _ _ _ h2 (le_refl 0) (hE.nonneg _ _ _ h2)
        · exact h2
      · simp only [hvec2, h3, hvec]
        have : vec P.p s.dr - ((s.dr i % (P.p : Int) : Int) : ZMod P.p) • rvec P.p r - vec P.p s.dr =
            - (((s.dr i % (P.p : Int) : Int) : ZMod P.p) • rvec P.p r) := by abel
        rw [this]
        exact Submodule.neg_mem _ (Submodule.smul_mem _ _
          (Submodule.subset_span ⟨i, r, le_refl _, by omega, hpi, rfl⟩))
      · intro c hc
        have hne : c ≠ i := by omega
        simp only [hoth c hne, h4 c hc, hbel c hne]
      · intro c hc
        have hne : c ≠ i := by omega
        simp only [hoth c hne, h5 c hc, hbel c hne]
      · simp only []
        split_ifs
        · rw [Function.update_self]; exact ⟨le_refl _, hpp.le⟩
        · exact hrange
      · simp only [hvec2]; exact hdi

/-! ### Writing the row -/

theorem dwrite_vec (P : Par) (c : Nat) (dr : Nat → Int) (h : ∀ j, 0 ≤ dr j) :
    vec P.p (dwrite P c dr) = vec P.p dr := by
  funext j
  unfold vec dwrite
  split_ifs with h1 h2
  · rw [Int.tmod_eq_emod_of_nonneg (h j), ZMod.intCast_mod]
  · rfl
  · rfl

theorem dwrite_range {P : Par} (hp : 0 < P.p) {c : Nat} {dr : Nat → Int} (h : ∀ j, 0 ≤ dr j)
    (h0 : ∀ j, P.ncols ≤ j → dr j = 0) {j : Nat} (hj : c ≤ j) : 0 ≤ dwrite P c dr j ∧ dwrite P c dr j < P.p := by
  have hpp : (0 : Int) < P.p := by exact_mod_cast hp
  unfold dwrite
  split_ifs with h1 h2
  · rw [Int.tmod_eq_emod_of_nonneg (h j)]
    exact ⟨Int.emod_nonneg _ hpp.ne', Int.emod_lt_of_pos _ hpp⟩
  · rw [not_not.mp h2]; exact ⟨le_refl _, hpp⟩
  · rw [h0 j (by omega)]; exact ⟨le_refl _, hpp⟩

theorem dwrite_below (P : Par) {c : Nat} (dr : Nat → Int) {j : Nat} (hj : j < c) : dwrite P c dr j = dr j := by
  unfold dwrite
  rw [if_neg (by omega)]

theorem dwrite_above (P : Par) {c : Nat} (dr : Nat → Int) {j : Nat} (hj : P.ncols ≤ j) : dwrite P c dr j = dr j := by
  unfold dwrite
  rw [if_neg (by omega)]

theorem denseRow_fst (P : Par) (c : Nat) (dr : Nat → Int) :
    (denseRow P c dr).map Prod.fst = List.range' c (P.ncols - c) := by
  unfold denseRow
  rw [List.map_map]
  exact List.map_id _

theorem denseRow_sorted (P : Par) (c : Nat) (dr : Nat → Int) : ((denseRow P c dr).map Prod.fst).Pairwise (· < ·) := by
  rw [denseRow_fst]
  exact List.pairwise_lt_range' (step := 1)

theorem denseRow_mem {P : Par} (h32 : P.p ≤ 2 ^ 32) {c : Nat} {dr : Nat → Int}
    (hr : ∀ j, c ≤ j → 0 ≤ dr j ∧ dr j < P.p) {t : Nat × Nat} (ht : t ∈ denseRow P c dr) :
    c ≤ t.1 ∧ t.1 < P.ncols ∧ t.2 < P.p ∧ (t.2 : Int) = dr t.1 := by
  unfold denseRow at ht
  rw [List.mem_map] at ht
  obtain ⟨j, hj, rfl⟩ := ht
  rw [List.mem_range'_1] at hj
  have hj' := hr j hj.1
  have h3 : (P.p : Int) ≤ 2 ^ 32 := by exact_mod_cast h32
  have : dr j % 2 ^ 32 = dr j := Int.emod_eq_of_lt hj'.1 (by linarith)
  simp only [this]
  refine ⟨hj.1, by omega, by omega, by omega⟩

theorem denseRow_rvec {P : Par} (h32 : P.p ≤ 2 ^ 32) {c : Nat} {dr : Nat → Int}
    (hr : ∀ j, c ≤ j → 0 ≤ dr j ∧ dr j < P.p) (h0 : ∀ j, P.ncols ≤ j → dr j = 0) (j : Nat) :
    rvec P.p (denseRow P c dr) j = if c ≤ j then vec P.p dr j else 0 := by
  unfold denseRow
  refine (rvec_map P.p (fun j : Nat => Int.toNat (dr j % (2 : Int) ^ 32)) _ (List.nodup_range' (step := 1)) j).trans ?_
  have h3 : (P.p : Int) ≤ 2 ^ 32 := by exact_mod_cast h32
  by_cases hc : c ≤ j
  · rw [if_pos hc]
    by_cases hj : j < P.ncols
    · rw [if_pos (by rw [List.mem_range'_1]; omega)]
      have hj' := hr j hc
      have : dr j % 2 ^ 32 = dr j := Int.emod_eq_of_lt hj'.1 (by linarith)
      rw [this]
      unfold vec
      rw [← Int.cast_natCast, Int.toNat_of_nonneg hj'.1]
    · rw [if_neg (by rw [List.mem_range'_1]; omega)]
      unfold vec
      rw [h0 j (by omega)]
      simp
  · rw [if_neg hc, if_neg (by rw [List.mem_range'_1]; omega)]

/-- Normalisation of a row that may contain zeros. -/
theorem normDense_spec {w out p : Nat} (hw : p < 2 ^ (w - 1)) (ho : p ≤ 2 ^ out)
    (hww : (p - 1) * (p - 1) < 2 ^ w) (hp : p.Prime) {t : Nat × Nat} {r : Row} (ht : 0 < t.2)
    (hr : ∀ u ∈ t :: r, u.2 < p) :
    ∃ r' u, normRow w out p (t :: r) = some r' ∧ r'.map Prod.fst = (t :: r).map Prod.fst ∧
      (∃ r'', r' = (t.1, 1) :: r'') ∧ (∀ v ∈ r', v.2 < p) ∧
      rvec p r' = ((u : Nat) : ZMod p) • rvec p (t :: r) ∧ ((u : Nat) : ZMod p) ≠ 0 := by
  have hpf : Fact p.Prime := ⟨hp⟩
  unfold normRow
  by_cases h1 : t.2 = 1
  · refine ⟨t :: r, 1, by simp [h1], rfl, ⟨r, by rw [← h1]⟩, hr, by simp, by simp⟩
  · obtain ⟨inv, i1, i2, i3⟩ := normSparse_spec (r := r.map Prod.snd) hw ho hww hp
      ht (fun b hb => by
        rw [← List.map_cons] at hb
        obtain ⟨u, hu, rfl⟩ := List.mem_map.mp hb
        exact hr u hu)
    have hinv0 : ((inv : Nat) : ZMod p) ≠ 0 := by
      intro h0
      rw [ZMod.natCast_eq_zero_iff] at h0
      have : p ∣ inv * t.2 := h0.mul_right _
      rw [Nat.dvd_iff_mod_eq_zero, i2] at this
      omega
    have e : (((t :: r).map Prod.fst).zip ((t.2 :: r.map Prod.snd).map (fun b => b * inv % p))) =
        (t :: r).map (fun t => (t.1, t.2 * inv % p)) := zip_map_fst_map_snd _ (t :: r)
    refine ⟨(t :: r).map (fun t => (t.1, t.2 * inv % p)), inv, ?_, ?_, ?_, ?_, rvec_scale p inv _, hinv0⟩
    · simp only []
      rw [if_pos h1, show (t :: r).map Prod.snd = t.2 :: r.map Prod.snd from rfl, i3, Option.map_some, e]
    · rw [List.map_map]; rfl
    · exact ⟨r.map (fun t => (t.1, t.2 * inv % p)), by rw [List.map_cons, Nat.mul_comm t.2 inv, i2]⟩
    · intro v hv
      obtain ⟨u, _, rfl⟩ := List.mem_map.mp hv
      exact Nat.mod_lt _ hp.pos

/-- The row that is written and normalised. -/
theorem normDense_write {P : Par} {Ok : Nat → (Nat → Int) → Prop} (hP : DParOk P Ok) {dr : Nat → Int} {c : Nat}
    (hn : ∀ j, 0 ≤ dr j) (h0 : ∀ j, P.ncols ≤ j → dr j = 0) (hc : c < P.ncols) (hpos : 0 < dr c) (hlt : dr c < P.p)
    (hz : ∀ j, j < c → vec P.p dr j = 0) :
    ∃ (r : Row) (u : ZMod P.p), normRow P.w P.out P.p (denseRow P c (dwrite P c dr)) = some r ∧ PivRow P.p P.ncols c r ∧
      (r.map Prod.fst).Pairwise (· < ·) ∧ rvec P.p r = u • vec P.p dr ∧ u ≠ 0 := by
  have hran : ∀ j, c ≤ j → 0 ≤ dwrite P c dr j ∧ dwrite P c dr j < P.p := fun j hj =>
    dwrite_range hP.prime.pos hn h0 hj
  have hab : ∀ j, P.ncols ≤ j → dwrite P c dr j = 0 := fun j hj => by rw [dwrite_above P dr hj]; exact h0 j hj
  have hmem := fun t => denseRow_mem (t := t) hP.h32 hran
  have hrv : rvec P.p (denseRow P c (dwrite P c dr)) = vec P.p dr := by
    funext j
    rw [denseRow_rvec hP.h32 hran hab, dwrite_vec P c dr hn]
    split_ifs with h
    · rfl
    · exact (hz j (by omega)).symm
  have hfst := denseRow_fst P c (dwrite P c dr)
  have hsort := denseRow_sorted P c (dwrite P c dr)
  generalize denseRow P c (dwrite P c dr) = E at *
  rcases E with _ | ⟨t, E⟩
  · rw [show P.ncols - c = (P.ncols - c - 1) + 1 by omega, List.range'_succ] at hfst
    simp at hfst
  · rw [show P.ncols - c = (P.ncols - c - 1) + 1 by omega, List.range'_succ, List.map_cons] at hfst
    have ht1 : t.1 = c := (List.cons.inj hfst).1
    have ht := hmem t List.mem_cons_self
    have hpos' : 0 < t.2 := by
      have : dwrite P c dr c = dr c := by
        unfold dwrite
        rw [if_pos ⟨le_refl _, hc⟩, if_pos hpos.ne', Int.tmod_eq_emod_of_nonneg hpos.le, Int.emod_eq_of_lt hpos.le hlt]
      rw [ht1, this] at ht
      omega
    obtain ⟨r', u, e1, e2, ⟨r'', e3⟩, e4, e5, e6⟩ := normDense_spec hP.hw hP.ho hP.hww hP.prime hpos'
      (fun u hu => (hmem u hu).2.2.1)
    refine ⟨r', ((u : Nat) : ZMod P.p), e1, PivRow.of_sorted ⟨r'', by rw [e3, ht1]⟩ (by rw [e2]; exact hsort) ?_,
      by rw [e2]; exact hsort, by rw [e5, hrv], e6⟩
    intro w hw
    have : w.1 ∈ r'.map Prod.fst := List.mem_map_of_mem hw
    rw [e2] at this
    obtain ⟨w', h, h'⟩ := List.mem_map.mp this
    rw [← h']
    exact ⟨(hmem w' h).2.1, e4 w hw⟩

/-! ### The threads -/

/-- Invariant of the array of pivots; `pivs0` are the known (sparse) ones. -/
structure DPivOk (P : Par) (pivs0 pivs : Nat → Option Row) (T : Submodule (ZMod P.p) (Nat → ZMod P.p)) : Prop where
  row : ∀ i r, pivs i = some r → PivRow P.p P.ncols i r
  ext : ∀ i r, pivs0 i = some r → pivs i = some r
  sub : allSpan P.p pivs ≤ T
  fresh : ∀ i r, pivs i = some r → pivs0 i = none → P.ncl ≤ i ∧ (r.map Prod.fst).Pairwise (· < ·)

/-- Invariant of a thread working on the row with vector `v`. -/
def DThOk (P : Par) (Ok : Nat → (Nat → Int) → Prop) (pivs0 pivs : Nat → Option Row) (v : Nat → ZMod P.p) :
    DTh → Prop
  | .red lost i s => i ≤ P.ncols ∧ Ok i s.dr ∧ vec P.p s.dr - v ∈ allSpan P.p pivs ∧
      (∀ c, P.ncols ≤ c → s.dr c = 0) ∧ (∀ c, c < i → 0 ≤ s.dr c ∧ s.dr c ≤ P.p) ∧
      ((s.np = none ∧ s.k = 0 ∧ ∀ c, c < i → vec P.p s.dr c = 0) ∨
        ∃ c, s.np = some c ∧ s.k ≠ 0 ∧ P.ncl ≤ c ∧ c < i ∧ 0 < s.dr c ∧ s.dr c < P.p ∧
          (∀ j, j < c → vec P.p s.dr j = 0) ∧ ∀ l, lost = some l → l < c) ∧
      (∀ l, lost = some l → pivs l ≠ none ∧ ∀ c, c < l → vec P.p s.dr c = 0) ∧
      (∀ c, i ≤ c → c < P.ncl → pivs0 c ≠ none)
  | .cas lost dr c r => vec P.p dr - v ∈ allSpan P.p pivs ∧ (∀ j, 0 ≤ dr j ∧ dr j ≤ P.p) ∧
      (∀ j, P.ncols ≤ j → dr j = 0) ∧ P.ncl ≤ c ∧ PivRow P.p P.ncols c r ∧ (r.map Prod.fst).Pairwise (· < ·) ∧
      (∀ j, j < c → vec P.p dr j = 0) ∧ (∀ l, lost = some l → l < c) ∧
      ∃ u : ZMod P.p, u ≠ 0 ∧ rvec P.p r = u • vec P.p dr
  | .zero => v ∈ allSpan P.p pivs
  | .won => v ∈ allSpan P.p pivs

theorem DThOk.mono {P : Par} {Ok : Nat → (Nat → Int) → Prop} {pivs0 pivs pivs' : Nat → Option Row}
    {v : Nat → ZMod P.p} (h : ∀ i r, pivs i = some r → pivs' i = some r) :
    ∀ {x : DTh}, DThOk P Ok pivs0 pivs v x → DThOk P Ok pivs0 pivs' v x
  | .red _ _ _, ⟨h1, h2, h3, h4, h5, h6, h7, h8⟩ =>
    ⟨h1, h2, allSpan_mono h h3, h4, h5, h6, fun l hl => ⟨by
      obtain ⟨r, hr⟩ := Option.ne_none_iff_exists'.mp (h7 l hl).1
      rw [h l r hr]; exact Option.some_ne_none _, (h7 l hl).2⟩, h8⟩
  | .cas _ _ _ _, ⟨h1, h2⟩ => ⟨allSpan_mono h h1, h2⟩
  | .zero, h1 => allSpan_mono h h1
  | .won, h1 => allSpan_mono h h1

/-- Columns that can still be lost. -/
def drank (P : Par) : Option Nat → Nat
  | none => P.ncols + 1
  | some l => P.ncols - l

/-- Bound on the number of steps a thread can still make. -/
def dmu (P : Par) : DTh → Nat
  | .red lost i _ => drank P lost * (P.ncols + 3) + (P.ncols - i) + 2
  | .cas lost _ _ _ => drank P lost * (P.ncols + 3) + 1
  | .zero => 0
  | .won => 0

/-- Where a reduction starts again: not behind the lost column, and all columns left of `ncl` that are visited
have known pivots. -/
def BackOk (P : Par) (back : Nat → Nat) (pivs0 : Nat → Option Row) : Prop :=
  ∀ c, P.ncl ≤ c → c < P.ncols → back c ≤ c ∧ ∀ j, back c ≤ j → j < P.ncl → pivs0 j ≠ none

theorem ne_zero_of_range {p : Nat} {x : Int} (h0 : 0 < x) (h1 : x < p) : ((x : Int) : ZMod p) ≠ 0 := by
  intro h
  rw [ZMod.intCast_zmod_eq_zero_iff_dvd] at h
  have := Int.le_of_dvd h0 h
  omega

theorem dthStep_ok {P : Par} {Ok : Nat → (Nat → Int) → Prop} (hP : DParOk P Ok) {back : Nat → Nat}
    {pivs0 pivs : Nat → Option Row} (hback : BackOk P back pivs0)
    {T : Submodule (ZMod P.p) (Nat → ZMod P.p)} {v : Nat → ZMod P.p}
    (hv : v ∈ T) (hpiv : DPivOk P pivs0 pivs T) {x : DTh} (hx : DThOk P Ok pivs0 pivs v x)
    (hf : x.finished = false) :
    ∃ x' pivs', dthStep P back pivs x = some (x', pivs') ∧ DThOk P Ok pivs0 pivs' v x' ∧
      DPivOk P pivs0 pivs' T ∧ (∀ i r, pivs i = some r → pivs' i = some r) ∧ dmu P x' < dmu P x := by
  have hpf : Fact P.p.Prime := ⟨hP.prime⟩
  have hpp : (0 : Int) < P.p := by exact_mod_cast hP.prime.pos
  rcases x with ⟨lost, i, s⟩ | ⟨lost, dr, c, r⟩ | _ | _
  · obtain ⟨h1, h2, h3, h4, h5, h6, h7, h8⟩ := hx
    by_cases hi : i < P.ncols
    · -- one pass of the column loop
      obtain ⟨s', e, a⟩ := dcolStep_spec hP (hpiv.row i) h2 hi (fun hl => by
        obtain ⟨r, hr⟩ := Option.ne_none_iff_exists'.mp (h8 i le_rfl hl)
        rw [hpiv.ext i r hr]; exact Option.some_ne_none _)
      have hvb : ∀ c, c < i → vec P.p s'.dr c = vec P.p s.dr c := fun c hc => by
        unfold vec; rw [a.below c hc]
      have h7' : ∀ l, lost = some l → pivs l ≠ none ∧ ∀ c, c < l → vec P.p s'.dr c = 0 := by
        intro l hl
        refine ⟨(h7 l hl).1, fun c hc => ?_⟩
        by_cases hil : i < l
        · rw [a.same ((h7 l hl).2 i hil)]; exact (h7 l hl).2 c hc
        · rw [hvb c (by omega)]; exact (h7 l hl).2 c hc
      refine ⟨.red lost (i + 1) s', pivs, ?_, ?_, hpiv, fun _ _ h => h, ?_⟩
      · simp only [dthStep]; rw [if_pos hi, e]; rfl
      · refine ⟨hi, a.ok, ?_, ?_, ?_, ?_, h7', fun c hc => h8 c (by omega)⟩
        · have := Submodule.add_mem _ (pivSpan_le_all _ _ _ _ a.span) h3
          rwa [sub_add_sub_cancel] at this
        · intro c hc; rw [a.above c hc]; exact h4 c hc
        · intro c hc
          by_cases hci : c = i
          · subst hci; exact a.range
          · rw [a.below c (by omega)]; exact h5 c (by omega)
        · rcases h6 with ⟨n1, n2, n3⟩ | ⟨c, n1, n2, n3, n4, n5, n6, n7, n8⟩
          · rcases a.alt with ⟨b1, b2, b3⟩ | ⟨b1, b2, b3, b4, b5, b6, b7⟩
            · refine Or.inl ⟨by rw [b2, n1], by rw [b3, n2], fun c hc => ?_⟩
              by_cases hci : c = i
              · subst hci; exact b1
              · rw [hvb c (by omega)]; exact n3 c (by omega)
            · refine Or.inr ⟨i, by rw [b6, if_pos n1], by omega, b2, by omega, b3, b4,
                fun j hj => by rw [hvb j hj]; exact n3 j hj, fun l hl => ?_⟩
              rcases lt_trichotomy l i with h | h | h
              · exact h
              · exact absurd (by rw [h]; exact b1) (h7 l hl).1
              · exact absurd ((h7' l hl).2 i h) (ne_zero_of_range b3 b4)
          · refine Or.inr ⟨c, ?_, ?_, n3, by omega, by rw [a.below c n4]; exact n5, by rw [a.below c n4]; exact n6,
              fun j hj => by rw [hvb j (by omega)]; exact n7 j hj, n8⟩
            · rcases a.alt with ⟨b1, b2, b3⟩ | ⟨b1, b2, b3, b4, b5, b6, b7⟩
              · rw [b2, n1]
              · rw [b6, n1]; rfl
            · rcases a.alt with ⟨b1, b2, b3⟩ | ⟨b1, b2, b3, b4, b5, b6, b7⟩ <;> omega
      · simp only [dmu]; omega
    · have hin : i = P.ncols := by omega
      subst hin
      have hn : ∀ j, 0 ≤ s.dr j := fun j => hP.elim.nonneg _ _ j h2
      rcases h6 with ⟨n1, n2, n3⟩ | ⟨c, n1, n2, n3, n4, n5, n6, n7, n8⟩
      · refine ⟨.zero, pivs, ?_, ?_, hpiv, fun _ _ h => h, ?_⟩
        · simp only [dthStep, dfinish]; rw [if_neg (lt_irrefl _), if_pos n2]; rfl
        · have hv0 : vec P.p s.dr = 0 := by
            funext c
            by_cases hc : c < P.ncols
            · exact n3 c hc
            · unfold vec; rw [h4 c (by omega)]; simp
          rw [hv0, zero_sub] at h3
          exact (Submodule.neg_mem_iff _).mp h3
        · simp only [dmu]; omega
      · obtain ⟨r, u, e1, e2, e3, e4, e5⟩ := normDense_write hP hn h4 n4 n5 n6 n7
        refine ⟨.cas lost (dwrite P c s.dr) c r, pivs, ?_, ?_, hpiv, fun _ _ h => h, ?_⟩
        · simp only [dthStep, dfinish]
          rw [if_neg (lt_irrefl _), if_neg n2, n1]
          simp only [e1, Option.map_some]
        · refine ⟨by rw [dwrite_vec P c s.dr hn]; exact h3, fun j => ?_, fun j hj => by
            rw [dwrite_above P s.dr hj]; exact h4 j hj, n3, e2, e3, fun j hj => by
            rw [dwrite_vec P c s.dr hn]; exact n7 j hj, n8, u, e5, by rw [dwrite_vec P c s.dr hn]; exact e4⟩
          by_cases hj : c ≤ j
          · have := dwrite_range hP.prime.pos hn h4 hj
            exact ⟨this.1, this.2.le⟩
          · rw [dwrite_below P s.dr (by omega)]
            exact h5 j (by omega)
        · simp only [dmu]; omega
  · obtain ⟨h1, h2, h3, h4, h5, h6, h7, h8, u, hu, h9⟩ := hx
    have hc : c < P.ncols := h5.lt
    rcases hpc : pivs c with _ | q
    · -- compare-and-swap succeeds
      have hext : ∀ i q, pivs i = some q → Function.update pivs c (some r) i = some q := by
        intro i q hq
        by_cases hic : i = c
        · subst hic; rw [hpc] at hq; exact absurd hq (by simp)
        · rw [Function.update_of_ne hic]; exact hq
      have hvd : vec P.p dr ∈ T := by
        have := Submodule.add_mem _ (hpiv.sub h1) hv
        rwa [sub_add_cancel] at this
      have hrT : rvec P.p r ∈ T := by rw [h9]; exact Submodule.smul_mem _ _ hvd
      refine ⟨.won, Function.update pivs c (some r), ?_, ?_, ⟨?_, ?_, ?_, ?_⟩, hext, ?_⟩
      · simp only [dthStep, hpc]
      · have h8 : vec P.p dr ∈ allSpan P.p (Function.update pivs c (some r)) := by
          have h9' : rvec P.p r ∈ allSpan P.p (Function.update pivs c (some r)) :=
            Submodule.subset_span ⟨c, r, by rw [Function.update_self], rfl⟩
          have h10 := Submodule.smul_mem _ u⁻¹ h9'
          rwa [h9, smul_smul, inv_mul_cancel₀ hu, one_smul] at h10
        have := Submodule.sub_mem _ h8 (allSpan_mono hext h1)
        rwa [sub_sub_cancel] at this
      · intro i q hq
        by_cases hic : i = c
        · subst hic; rw [Function.update_self] at hq; rw [← Option.some.inj hq]; exact h5
        · rw [Function.update_of_ne hic] at hq; exact hpiv.row i q hq
      · intro i q hq; exact hext i q (hpiv.ext i q hq)
      · apply Submodule.span_le.mpr
        rintro w ⟨j, q, hq, rfl⟩
        by_cases hic : j = c
        · subst hic; rw [Function.update_self] at hq; rw [← Option.some.inj hq]; exact hrT
        · rw [Function.update_of_ne hic] at hq
          exact hpiv.sub (Submodule.subset_span ⟨j, q, hq, rfl⟩)
      · intro i q hq h0
        by_cases hic : i = c
        · subst hic; rw [Function.update_self] at hq; rw [← Option.some.inj hq]; exact ⟨h4, h6⟩
        · rw [Function.update_of_ne hic] at hq; exact hpiv.fresh i q hq h0
      · simp only [dmu]; omega
    · -- another thread was faster
      obtain ⟨k1, k2⟩ := hback c h4 hc
      refine ⟨.red (some c) (back c) { dr := dr, np := none, k := 0 }, pivs, ?_, ?_, hpiv, fun _ _ h => h, ?_⟩
      · simp only [dthStep, hpc]
      · refine ⟨by omega, hP.ok_of_zero (hP.init' dr h2) _, h1, h3, fun j _ => h2 j,
          Or.inl ⟨rfl, rfl, fun j hj => h7 j (by omega)⟩, ?_, k2⟩
        intro l hl
        rw [← Option.some.inj hl]
        exact ⟨by rw [hpc]; simp, h7⟩
      · simp only [dmu]
        have hR : drank P (some c) + 1 ≤ drank P lost := by
          rcases lost with _ | l
          · simp only [drank]; omega
          · have := h8 l rfl
            simp only [drank]; omega
        have := Nat.mul_le_mul_right (P.ncols + 3) hR
        rw [Nat.add_mul, Nat.one_mul] at this
        omega
  · simp [DTh.finished] at hf
  · simp [DTh.finished] at hf

def DConfOk (P : Par) (Ok : Nat → (Nat → Int) → Prop) (pivs0 : Nat → Option Row)
    (T : Submodule (ZMod P.p) (Nat → ZMod P.p)) {n : Nat} (v : Fin n → Nat → ZMod P.p) (c : DConf n) : Prop :=
  DPivOk P pivs0 c.pivs T ∧ ∀ t, DThOk P Ok pivs0 c.pivs (v t) (c.th t)

theorem dstep_ok {P : Par} {Ok : Nat → (Nat → Int) → Prop} (hP : DParOk P Ok) {back : Nat → Nat}
    {pivs0 : Nat → Option Row} (hback : BackOk P back pivs0) {T : Submodule (ZMod P.p) (Nat → ZMod P.p)} {n : Nat}
    {v : Fin n → Nat → ZMod P.p} (hv : ∀ t, v t ∈ T) {c c' : DConf n} (h : DConfOk P Ok pivs0 T v c)
    (hs : DStep P back c c') :
    DConfOk P Ok pivs0 T v c' ∧ (∑ t, dmu P (c'.th t)) < ∑ t, dmu P (c.th t) := by
  rcases hs with ⟨t, x, pivs', hf, e⟩
  obtain ⟨x', pivs'', e', a1, a2, a3, a4⟩ := dthStep_ok hP hback (hv t) h.1 (h.2 t) hf
  rw [e] at e'
  obtain ⟨hx, hp⟩ := Prod.mk.inj (Option.some.inj e')
  rw [← hx] at a1 a4
  rw [← hp] at a1 a2 a3
  refine ⟨⟨a2, fun t' => ?_⟩, ?_⟩
  · by_cases ht : t' = t
    · subst ht; simp only [Function.update_self]; exact a1
    · simp only [Function.update_of_ne ht]; exact (h.2 t').mono a3
  · apply Finset.sum_lt_sum
    · intro t' _
      by_cases ht : t' = t
      · subst ht; simp only [Function.update_self]; exact a4.le
      · simp only [Function.update_of_ne ht]; exact le_refl _
    · exact ⟨t, Finset.mem_univ _, by simp only [Function.update_self]; exact a4⟩

theorem dexec_ok {P : Par} {Ok : Nat → (Nat → Int) → Prop} (hP : DParOk P Ok) {back : Nat → Nat}
    {pivs0 : Nat → Option Row} (hback : BackOk P back pivs0) {T : Submodule (ZMod P.p) (Nat → ZMod P.p)} {n : Nat}
    {v : Fin n → Nat → ZMod P.p} (hv : ∀ t, v t ∈ T) {c c' : DConf n} {m : Nat}
    (h : DConfOk P Ok pivs0 T v c) (hs : DExec P back m c c') :
    DConfOk P Ok pivs0 T v c' ∧ m + (∑ t, dmu P (c'.th t)) ≤ ∑ t, dmu P (c.th t) := by
  induction hs with
  | refl => exact ⟨h, by omega⟩
  | step _ hs ih =>
    obtain ⟨b1, b2⟩ := ih h
    obtain ⟨a1, a2⟩ := dstep_ok hP hback hv b1 hs
    exact ⟨a1, by omega⟩

/-! ### The sequential loops -/

/-- What the loop over `cnt` columns does. -/
structure DLoopOk (P : Par) (pivs : Nat → Option Row) (Ok : Nat → (Nat → Int) → Prop) (i cnt : Nat) (s s' : St) :
    Prop where
  ok : Ok (i + cnt) s'.dr
  span : vec P.p s'.dr - vec P.p s.dr ∈ pivSpan P.p pivs i (i + cnt)
  below : ∀ c, c < i → s'.dr c = s.dr c
  above : ∀ c, P.ncols ≤ c → s'.dr c = s.dr c
  zero : ∀ c, i ≤ c → c < i + cnt → pivs c ≠ none → vec P.p s'.dr c = 0
  np : ∀ c, s.np = some c → s'.np = some c ∧ s.k ≤ s'.k

theorem dLoop_spec {P : Par} {Ok : Nat → (Nat → Int) → Prop} (hP : DParOk P Ok) {pivs : Nat → Option Row}
    (hpiv : ∀ i r, pivs i = some r → PivRow P.p P.ncols i r) : ∀ (cnt i : Nat) (s : St), Ok i s.dr →
    i + cnt ≤ P.ncols → (∀ c, i ≤ c → c < i + cnt → c < P.ncl → pivs c ≠ none) →
    ∃ s', dLoop P pivs cnt i s = some s' ∧ DLoopOk P pivs Ok i cnt s s'
  | 0, i, s, hok, _, _ => ⟨s, rfl, hok, by rw [sub_self]; exact Submodule.zero_mem _, fun _ _ => rfl, fun _ _ => rfl,
      fun c h1 h2 => by omega, fun c hc => ⟨hc, le_rfl⟩⟩
  | cnt + 1, i, s, hok, hi, hleft => by
    obtain ⟨s1, e1, a⟩ := dcolStep_spec hP (hpiv i) hok (by omega) (fun h => hleft i le_rfl (by omega) h)
    obtain ⟨s2, e2, b⟩ := dLoop_spec hP hpiv cnt (i + 1) s1 a.ok (by omega)
      (fun c h1 h2 => hleft c (by omega) (by omega))
    refine ⟨s2, by rw [dLoop, e1, Option.bind_some, e2], by rw [show i + (cnt + 1) = i + 1 + cnt by omega]; exact b.ok,
      ?_, ?_, ?_, ?_, ?_⟩
    · have h1 := pivSpan_mono P.p pivs (a := i + 1) (b := i + 1 + cnt) (a' := i) (b' := i + (cnt + 1)) (by omega)
        (by omega) b.span
      have h2 := pivSpan_mono P.p pivs (a := i) (b := i + 1) (a' := i) (b' := i + (cnt + 1)) (by omega)
        (by omega) a.span
      have := Submodule.add_mem _ h1 h2
      rwa [sub_add_sub_cancel] at this
    · intro c hc; rw [b.below c (by omega), a.below c hc]
    · intro c hc; rw [b.above c hc, a.above c hc]
    · intro c h1 h2 h3
      by_cases hci : c = i
      · subst hci
        have : vec P.p s2.dr c = vec P.p s1.dr c := by unfold vec; rw [b.below c (by omega)]
        rw [this]
        rcases a.alt with h | h
        · exact h.1
        · exact absurd h.1 h3
      · exact b.zero c (by omega) (by omega) h3
    · intro c hc
      have h1 : s1.np = some c ∧ s.k ≤ s1.k := by
        rcases a.alt with h | h
        · exact ⟨by rw [h.2.1, hc], by omega⟩
        · exact ⟨by rw [h.2.2.2.2.2.1, hc]; rfl, by omega⟩
      have h2 := b.np c h1.1
      exact ⟨h2.1, by omega⟩

/-! ### Phase one -/

/-- What is known of a dense row: its columns and its entries. -/
structure DRow (P : Par) (r : Row) : Prop where
  sorted : (r.map Prod.fst).Pairwise (· < ·)
  bound : ∀ t ∈ r, P.ncl ≤ t.1 ∧ t.1 < P.ncols ∧ t.2 < P.p
  ne : ∃ t ∈ r, t.2 ≠ 0

theorem oldRow_spec {P : Par} {Ok : Nat → (Nat → Int) → Prop} (hP : DParOk P Ok) {pivs0 : Nat → Option Row}
    (hpiv : ∀ i r, pivs0 i = some r → PivRow P.p P.ncols i r) (hcl : ∀ c, c < P.ncl → pivs0 c ≠ none)
    {t : Nat × Nat} {r : Row} (hr : InRow P.p P.ncols t.1 (t :: r)) :
    ∃ d, oldRow P pivs0 (t :: r) = some d ∧
      (d = none → rvec P.p (t :: r) ∈ allSpan P.p pivs0) ∧
      (∀ q, d = some q → DRow P q ∧ rvec P.p q - rvec P.p (t :: r) ∈ allSpan P.p pivs0) := by
  have hran := fill_range P.p hP.prime.pos (t :: r) (fun u hu => (hr.bound u hu).2.2)
  have hlow : ∀ c, c < t.1 → fill (t :: r) c = 0 := fun c hc => fill_zero _ _ (fun u hu => by
    have := (hr.bound u hu).1; omega)
  have htc : t.1 < P.ncols := (hr.bound t List.mem_cons_self).2.1
  have hncl := hP.hncl
  obtain ⟨s, e, a⟩ := dLoop_spec hP hpiv (P.ncl - t.1) t.1 { dr := fill (t :: r), np := none, k := 0 }
    (hP.ok_of_zero (hP.elim.init _ hran) _) (by omega) (fun c _ _ h => hcl c h)
  have hn : ∀ j, 0 ≤ s.dr j := fun j => hP.elim.nonneg _ _ j a.ok
  have h0 : ∀ j, P.ncols ≤ j → s.dr j = 0 := fun j hj => by
    rw [a.above j hj]
    exact fill_zero _ _ (fun u hu => by have := (hr.bound u hu).2.1; omega)
  have hz : ∀ c, c < P.ncl → vec P.p s.dr c = 0 := by
    intro c hc
    by_cases hct : c < t.1
    · unfold vec; rw [a.below c hct]; simp only [hlow c hct]; simp
    · exact a.zero c (by omega) (by omega) (hcl c hc)
  have hran' : ∀ j, P.ncl ≤ j → 0 ≤ dwrite P P.ncl s.dr j ∧ dwrite P P.ncl s.dr j < P.p := fun j hj =>
    dwrite_range hP.prime.pos hn h0 hj
  have hab : ∀ j, P.ncols ≤ j → dwrite P P.ncl s.dr j = 0 := fun j hj => by
    rw [dwrite_above P s.dr hj]; exact h0 j hj
  have hrv : rvec P.p (denseRow P P.ncl (dwrite P P.ncl s.dr)) = vec P.p s.dr := by
    funext j
    rw [denseRow_rvec hP.h32 hran' hab, dwrite_vec P P.ncl s.dr hn]
    split_ifs with h
    · rfl
    · exact (hz j (by omega)).symm
  have hspan : vec P.p s.dr - rvec P.p (t :: r) ∈ allSpan P.p pivs0 := by
    have := pivSpan_le_all _ _ _ _ a.span
    simp only [fill_vec P.p (t :: r) hr.nodup] at this
    exact this
  have hsort := denseRow_sorted P P.ncl (dwrite P P.ncl s.dr)
  have hmem := fun t => denseRow_mem (t := t) hP.h32 hran'
  refine ⟨if (denseRow P P.ncl (dwrite P P.ncl s.dr)).all (fun t => t.2 = 0) then none
      else some (denseRow P P.ncl (dwrite P P.ncl s.dr)), by simp only [oldRow, e, Option.map_some], ?_, ?_⟩
  · intro hd
    split_ifs at hd with hall
    have : vec P.p s.dr = 0 := by
      rw [← hrv]
      rw [List.all_eq_true] at hall
      funext j
      unfold rvec
      have hz0 : ∀ u ∈ (denseRow P P.ncl (dwrite P P.ncl s.dr)).map
          (fun t => Pi.single (M := fun _ => ZMod P.p) t.1 ((t.2 : Nat) : ZMod P.p)), u = 0 := by
        intro u hu
        obtain ⟨w, hw, rfl⟩ := List.mem_map.mp hu
        have := of_decide_eq_true (hall w hw)
        rw [this]
        simp
      rw [List.sum_eq_zero hz0]
    rw [this, zero_sub] at hspan
    exact (Submodule.neg_mem_iff _).mp hspan
  · intro q hq
    split_ifs at hq with hall
    rw [← Option.some.inj hq]
    refine ⟨⟨hsort, fun t ht => ⟨(hmem t ht).1, (hmem t ht).2.1, (hmem t ht).2.2.1⟩, ?_⟩, by rw [hrv]; exact hspan⟩
    by_contra hcon
    push Not at hcon
    exact hall (by rw [List.all_eq_true]; intro t ht; exact decide_eq_true (hcon t ht))

/-- Rows of the input: non-empty, first column first. -/
def InputRow (P : Par) (r : Row) : Prop := ∃ t q, r = t :: q ∧ InRow P.p P.ncols t.1 r

theorem abcd_spec {P : Par} {Ok : Nat → (Nat → Int) → Prop} (hP : DParOk P Ok) {pivs0 : Nat → Option Row}
    (hpiv : ∀ i r, pivs0 i = some r → PivRow P.p P.ncols i r) (hcl : ∀ c, c < P.ncl → pivs0 c ≠ none) :
    ∀ rows : List Row, (∀ r ∈ rows, InputRow P r) → ∃ ds, abcd P pivs0 rows = some ds ∧ (∀ d ∈ ds, DRow P d) ∧
      allSpan P.p pivs0 ⊔ Submodule.span (ZMod P.p) { v | ∃ d ∈ ds, v = rvec P.p d } =
        allSpan P.p pivs0 ⊔ Submodule.span (ZMod P.p) { v | ∃ r ∈ rows, v = rvec P.p r }
  | [], _ => ⟨[], rfl, by simp, by simp⟩
  | r :: rows, h => by
    obtain ⟨t, q, hrq, hr⟩ := h r List.mem_cons_self
    obtain ⟨ds, e, a1, a2⟩ := abcd_spec hP hpiv hcl rows (fun r hr => h r (List.mem_cons_of_mem _ hr))
    rw [hrq] at hr ⊢
    obtain ⟨d, e1, b1, b2⟩ := oldRow_spec hP hpiv hcl hr
    have hins : ∀ (x : Row) (l : List Row), { v | ∃ d ∈ x :: l, v = rvec P.p d } =
        {rvec P.p x} ∪ { v | ∃ d ∈ l, v = rvec P.p d } := by
      intro x l
      ext v
      simp
    rw [hins, Submodule.span_union, ← sup_assoc, sup_right_comm, ← a2]
    rcases d with _ | d
    · refine ⟨ds, by rw [abcd, e1, Option.bind_some, e]; rfl, a1, ?_⟩
      have : Submodule.span (ZMod P.p) {rvec P.p (t :: q)} ≤ allSpan P.p pivs0 := by
        rw [Submodule.span_singleton_le_iff_mem]; exact b1 rfl
      rw [sup_eq_left.mpr (this.trans le_sup_left)]
    · obtain ⟨c1, c2⟩ := b2 d rfl
      refine ⟨d :: ds, by rw [abcd, e1, Option.bind_some, e]; rfl, ?_, ?_⟩
      · intro x hx
        rcases List.mem_cons.mp hx with rfl | hx
        · exact c1
        · exact a1 x hx
      · rw [hins, Submodule.span_union, ← sup_assoc, sup_right_comm]
        apply le_antisymm
        · apply sup_le le_sup_left
          rw [Submodule.span_singleton_le_iff_mem]
          have h1 : rvec P.p d - rvec P.p (t :: q) ∈ allSpan P.p pivs0 ⊔ Submodule.span (ZMod P.p)
              { v | ∃ d ∈ ds, v = rvec P.p d } ⊔ Submodule.span (ZMod P.p) {rvec P.p (t :: q)} :=
            Submodule.mem_sup_left (Submodule.mem_sup_left c2)
          have h2 : rvec P.p (t :: q) ∈ allSpan P.p pivs0 ⊔ Submodule.span (ZMod P.p)
              { v | ∃ d ∈ ds, v = rvec P.p d } ⊔ Submodule.span (ZMod P.p) {rvec P.p (t :: q)} :=
            Submodule.mem_sup_right (Submodule.mem_span_singleton_self _)
          have := Submodule.add_mem _ h1 h2
          rwa [sub_add_cancel] at this
        · apply sup_le le_sup_left
          rw [Submodule.span_singleton_le_iff_mem]
          have h1 : rvec P.p d - rvec P.p (t :: q) ∈ allSpan P.p pivs0 ⊔ Submodule.span (ZMod P.p)
              { v | ∃ d ∈ ds, v = rvec P.p d } ⊔ Submodule.span (ZMod P.p) {rvec P.p d} :=
            Submodule.mem_sup_left (Submodule.mem_sup_left c2)
          have h2 : rvec P.p d ∈ allSpan P.p pivs0 ⊔ Submodule.span (ZMod P.p)
              { v | ∃ d ∈ ds, v = rvec P.p d } ⊔ Submodule.span (ZMod P.p) {rvec P.p d} :=
            Submodule.mem_sup_right (Submodule.mem_span_singleton_self _)
          have := Submodule.sub_mem _ h2 h1
          rwa [sub_sub_cancel] at this

/-! ### Splitting -/

theorem rvec_dropWhile (p : Nat) : ∀ r : Row, rvec p (r.dropWhile fun t => t.2 = 0) = rvec p r
  | [] => rfl
  | t :: r => by
    rw [List.dropWhile_cons]
    split_ifs with h
    · have h' : t.2 = 0 := of_decide_eq_true h
      rw [rvec_dropWhile p r, rvec_cons, h']
      simp
    · rfl

theorem dropWhile_nil_all {α : Type*} {p : α → Bool} : ∀ {l : List α}, l.dropWhile p = [] → ∀ x ∈ l, p x = true
  | [], _, x, hx => by simp at hx
  | a :: l, h, x, hx => by
    rw [List.dropWhile_cons] at h
    split_ifs at h with ha
    rcases List.mem_cons.mp hx with rfl | hx
    · exact ha
    · exact dropWhile_nil_all h x hx

/-- Invariant of the array of new dense pivots. -/
def NpsOk (P : Par) (nps : Nat → Option Row) : Prop :=
  ∀ i r, nps i = some r → PivRow P.p P.ncols i r ∧ P.ncl ≤ i ∧ (r.map Prod.fst).Pairwise (· < ·)

theorem splitRows_spec {P : Par} {Ok : Nat → (Nat → Int) → Prop} (hP : DParOk P Ok) : ∀ (ds : List Row)
    (nps : Nat → Option Row), (∀ d ∈ ds, DRow P d) → NpsOk P nps →
    ∃ nps' tbr, splitRows P ds nps = some (nps', tbr) ∧ NpsOk P nps' ∧ (∀ d ∈ tbr, DRow P d) ∧
      allSpan P.p nps' ⊔ Submodule.span (ZMod P.p) { v | ∃ d ∈ tbr, v = rvec P.p d } =
        allSpan P.p nps ⊔ Submodule.span (ZMod P.p) { v | ∃ d ∈ ds, v = rvec P.p d }
  | [], nps, _, hn => ⟨nps, [], rfl, hn, by simp, rfl⟩
  | r :: ds, nps, hd, hn => by
    have hpf : Fact P.p.Prime := ⟨hP.prime⟩
    have hr := hd r List.mem_cons_self
    have hins : ∀ (x : Row) (l : List Row), { v | ∃ d ∈ x :: l, v = rvec P.p d } =
        {rvec P.p x} ∪ { v | ∃ d ∈ l, v = rvec P.p d } := by
      intro x l
      ext v
      simp
    have hsub : (r.dropWhile fun t => t.2 = 0) <:+ r := List.dropWhile_suffix _
    have hne : (r.dropWhile fun t => t.2 = 0) ≠ [] := by
      intro h
      have h := dropWhile_nil_all h
      obtain ⟨t, ht, h0⟩ := hr.ne
      exact h0 (of_decide_eq_true (h t ht))
    have hhead : ∀ t q, (r.dropWhile fun t => t.2 = 0) = t :: q → t.2 ≠ 0 := by
      intro t q h h0
      have := List.head_dropWhile_not (p := fun t : Nat × Nat => decide (t.2 = 0)) (l := r) hne
      simp only [h, List.head_cons, decide_eq_false_iff_not] at this
      exact this h0
    have hrv := rvec_dropWhile P.p r
    have hmem : ∀ t ∈ r.dropWhile fun t => t.2 = 0, t ∈ r := fun t ht => hsub.subset ht
    have hsort : ((r.dropWhile fun t => t.2 = 0).map Prod.fst).Pairwise (· < ·) :=
      hr.sorted.sublist (hsub.sublist.map _)
    rw [splitRows]
    generalize (r.dropWhile fun t => t.2 = 0) = E at *
    rcases E with _ | ⟨t, q⟩
    · exact absurd rfl hne
    · simp only []
      rcases hnp : nps t.1 with _ | x
      · obtain ⟨r', u, e1, e2, ⟨r'', e3⟩, e4, e5, e6⟩ := normDense_spec hP.hw hP.ho hP.hww hP.prime
          (Nat.pos_of_ne_zero (hhead t q rfl)) (fun u hu => (hr.bound u (hmem u hu)).2.2)
        have hrow : PivRow P.p P.ncols t.1 r' := by
          refine PivRow.of_sorted ⟨r'', e3⟩ (by rw [e2]; exact hsort) (fun w hw => ?_)
          have : w.1 ∈ r'.map Prod.fst := List.mem_map_of_mem hw
          rw [e2] at this
          obtain ⟨w', h, h'⟩ := List.mem_map.mp this
          rw [← h']
          exact ⟨(hr.bound w' (hmem w' h)).2.1, e4 w hw⟩
        have hn' : NpsOk P (Function.update nps t.1 (some r')) := by
          intro i x hx
          by_cases hi : i = t.1
          · subst hi
            rw [Function.update_self] at hx
            rw [← Option.some.inj hx]
            exact ⟨hrow, (hr.bound t (hmem t List.mem_cons_self)).1, by rw [e2]; exact hsort⟩
          · rw [Function.update_of_ne hi] at hx; exact hn i x hx
        obtain ⟨nps', tbr, a0, a1, a2, a3⟩ := splitRows_spec hP ds _ (fun d h => hd d (List.mem_cons_of_mem _ h)) hn'
        refine ⟨nps', tbr, by rw [e1, Option.bind_some, a0], a1, a2, ?_⟩
        have hall : allSpan P.p (Function.update nps t.1 (some r')) =
            allSpan P.p nps ⊔ Submodule.span (ZMod P.p) {rvec P.p r} := by
          apply le_antisymm
          · apply Submodule.span_le.mpr
            rintro w ⟨j, x, hx, rfl⟩
            by_cases hj : j = t.1
            · subst hj
              rw [Function.update_self] at hx
              rw [← Option.some.inj hx, e5, hrv]
              exact Submodule.smul_mem _ _ (Submodule.mem_sup_right (Submodule.mem_span_singleton_self _))
            · rw [Function.update_of_ne hj] at hx
              exact Submodule.mem_sup_left (Submodule.subset_span ⟨j, x, hx, rfl⟩)
          · apply sup_le
            · apply allSpan_mono
              intro i x hx
              by_cases hi : i = t.1
              · subst hi; rw [hnp] at hx; exact absurd hx (by simp)
              · rw [Function.update_of_ne hi]; exact hx
            · rw [Submodule.span_singleton_le_iff_mem]
              have h1 : rvec P.p r' ∈ allSpan P.p (Function.update nps t.1 (some r')) :=
                Submodule.subset_span ⟨t.1, r', by rw [Function.update_self], rfl⟩
              have := Submodule.smul_mem _ (((u : Nat) : ZMod P.p))⁻¹ h1
              rwa [e5, smul_smul, inv_mul_cancel₀ e6, one_smul, hrv] at this
        rw [a3, hall, hins, Submodule.span_union, sup_assoc]
      · obtain ⟨nps', tbr, a0, a1, a2, a3⟩ := splitRows_spec hP ds nps (fun d h => hd d (List.mem_cons_of_mem _ h)) hn
        refine ⟨nps', r :: tbr, by rw [a0]; rfl, a1, ?_, ?_⟩
        · intro d h
          rcases List.mem_cons.mp h with rfl | h
          · exact hr
          · exact a2 d h
        · rw [hins, hins, Submodule.span_union, Submodule.span_union, sup_left_comm, a3, sup_left_comm]

/-! ### Interreduction -/

/-- Invariant of the interreduction after `m` passes. -/
structure DInterOk (P : Par) (pivs : Nat → Option Row) (m : Nat) (pivs' : Nat → Option Row) : Prop where
  same : ∀ c, pivs' c = none ↔ pivs c = none
  row : NpsOk P pivs'
  span : allSpan P.p pivs' = allSpan P.p pivs
  red : ∀ i r, P.ncols ≤ i + m → pivs' i = some r → ∀ j, j ≠ i → pivs' j ≠ none → rvec P.p r j = 0

theorem dinterStep_ok {P : Par} {Ok : Nat → (Nat → Int) → Prop} (hP : DParOk P Ok)
    {pivs pivs' : Nat → Option Row} {m : Nat} (h : DInterOk P pivs m pivs') :
    ∃ pivs'', dinterStep P pivs' (P.ncols - 1 - m) = some pivs'' ∧ DInterOk P pivs (m + 1) pivs'' := by
  set k := P.ncols - 1 - m with hk
  have hpf : Fact P.p.Prime := ⟨hP.prime⟩
  unfold dinterStep
  rcases hr : pivs' k with _ | r
  · refine ⟨pivs', rfl, h.same, h.row, h.span, ?_⟩
    intro i r hi hir
    by_cases hik : i = k
    · subst hik; rw [hr] at hir; exact absurd hir (by simp)
    · exact h.red i r (by omega) hir
  · obtain ⟨hrow, hkl, hsorted⟩ := h.row k r hr
    have hnd : (r.map Prod.fst).Nodup := hrow.nodup
    have hkc : k < P.ncols := hrow.lt
    have hpiv1 : ∀ i q, Function.update pivs' k none i = some q → PivRow P.p P.ncols i q := by
      intro i q hq
      by_cases hik : i = k
      · subst hik; rw [Function.update_self] at hq; exact absurd hq (by simp)
      · rw [Function.update_of_ne hik] at hq; exact (h.row i q hq).1
    have hok : Ok k (fill r) := hP.ok_of_zero
      (hP.elim.init _ (fill_range P.p hP.prime.pos r (fun t ht => (hrow.bound t ht).2))) k
    -- column k
    obtain ⟨s1, e1, a⟩ := dcolStep_spec (s := { dr := fill r, np := none, k := 0 }) hP (hpiv1 k) hok hkc
      (fun hl => absurd hl (by omega))
    have hv0 : vec P.p (fill r) = rvec P.p r := fill_vec P.p r hnd
    have hb : s1.np = some k ∧ s1.k = 1 ∧ 0 < s1.dr k ∧ s1.dr k < P.p ∧ vec P.p s1.dr = rvec P.p r := by
      rcases a.alt with ⟨b1, _, _⟩ | ⟨b1, b2, b3, b4, b5, b6, b7⟩
      · exfalso
        have h1 := a.span
        have h2 : pivSpan P.p (Function.update pivs' k none) k (k + 1) = ⊥ := by
          unfold pivSpan
          rw [Submodule.span_eq_bot]
          rintro v ⟨j, q, j1, j2, j3, _⟩
          have : j = k := by omega
          subst this
          rw [Function.update_self] at j3
          exact absurd j3 (by simp)
        rw [h2, Submodule.mem_bot, sub_eq_zero] at h1
        rw [h1] at b1
        simp only [hv0] at b1
        rw [hrow.at_head] at b1
        exact one_ne_zero b1
      · exact ⟨by rw [b6]; rfl, by rw [b7], b3, b4, by rw [b5]; exact hv0⟩
    obtain ⟨c1, c2, c3, c4, c5⟩ := hb
    obtain ⟨s2, e2, b⟩ := dLoop_spec hP hpiv1 (P.ncols - k - 1) (k + 1) s1 a.ok (by omega)
      (fun c h1 h2 h3 => absurd h3 (by omega))
    have hloop : dLoop P (Function.update pivs' k none) (P.ncols - k) k { dr := fill r, np := none, k := 0 } = some s2 := by
      rw [show P.ncols - k = (P.ncols - k - 1) + 1 by omega, dLoop, e1, Option.bind_some, e2]
    obtain ⟨d1, d2⟩ := b.np k c1
    have hn : ∀ j, 0 ≤ s2.dr j := fun j => hP.elim.nonneg _ _ j b.ok
    have h0 : ∀ j, P.ncols ≤ j → s2.dr j = 0 := fun j hj => by
      rw [b.above j hj, a.above j hj]
      exact fill_zero _ _ (fun t ht => by have := (hrow.bound t ht).1; omega)
    have hk2 : s2.dr k = s1.dr k := b.below k (by omega)
    have hz : ∀ j, j < k → vec P.p s2.dr j = 0 := fun j hj => by
      unfold vec
      rw [b.below j (by omega), a.below j hj]
      simp only [fill_zero r j (fun t ht => by have := hrow.col_ge t ht; omega)]
      simp
    obtain ⟨q, u, f1, f2, f3, f4, f5⟩ := normDense_write hP hn h0 hkc (by rw [hk2]; exact c3) (by rw [hk2]; exact c4) hz
    have hu1 : u = 1 := by
      have g1 := congrFun f4 k
      have g2 : vec P.p s2.dr k = 1 := by
        have : vec P.p s2.dr k = vec P.p s1.dr k := by unfold vec; rw [hk2]
        rw [this, c5, hrow.at_head]
      rw [Pi.smul_apply, g2, f2.at_head, smul_eq_mul, mul_one] at g1
      exact g1.symm
    rw [hu1, one_smul] at f4
    have hfin : dfinish P s2 = some (some (k, q, dwrite P k s2.dr)) := by
      unfold dfinish
      rw [if_neg (by omega), d1]
      simp only [f1, Option.map_some]
    have hspan : rvec P.p q - rvec P.p r ∈ allSpan P.p (Function.update pivs' k none) := by
      have := pivSpan_le_all _ _ _ _ b.span
      rwa [← f4, c5] at this
    have hnone : ∀ S : Option Row, allSpan P.p (Function.update pivs' k none) ≤
        allSpan P.p (Function.update pivs' k S) := by
      intro S
      apply allSpan_mono
      intro i x hx
      by_cases hik : i = k
      · subst hik; rw [Function.update_self] at hx; exact absurd hx (by simp)
      · rw [Function.update_of_ne hik] at hx ⊢; exact hx
    have hold : Function.update pivs' k (some r) = pivs' := by rw [← hr]; exact Function.update_eq_self k pivs'
    have hsome : ∀ c, Function.update pivs' k (some q) c ≠ none ↔ pivs' c ≠ none := by
      intro c
      by_cases hc : c = k
      · subst hc; rw [Function.update_self, hr]; simp
      · rw [Function.update_of_ne hc]
    refine ⟨Function.update pivs' k (some q), ?_, ?_, ?_, ?_, ?_⟩
    · simp only []
      rw [hloop, Option.bind_some, hfin, Option.bind_some]
      simp only [if_true]
    · intro c
      rw [← h.same c]
      exact not_iff_not.mp (hsome c)
    · intro i x hx
      by_cases hik : i = k
      · subst hik; rw [Function.update_self] at hx; rw [← Option.some.inj hx]
        exact ⟨f2, hkl, f3⟩
      · rw [Function.update_of_ne hik] at hx; exact h.row i x hx
    · rw [← h.span]
      apply le_antisymm
      · apply Submodule.span_le.mpr
        rintro w ⟨j, x, hx, rfl⟩
        by_cases hik : j = k
        · subst hik; rw [Function.update_self] at hx; rw [← Option.some.inj hx]
          have h8 := hnone (some r) hspan
          rw [hold] at h8
          have h9 : rvec P.p r ∈ allSpan P.p pivs' := Submodule.subset_span ⟨_, r, hr, rfl⟩
          have := Submodule.add_mem _ h8 h9
          rwa [sub_add_cancel] at this
        · rw [Function.update_of_ne hik] at hx
          exact Submodule.subset_span ⟨j, x, hx, rfl⟩
      · apply Submodule.span_le.mpr
        rintro w ⟨j, x, hx, rfl⟩
        by_cases hik : j = k
        · subst hik; rw [hr] at hx; rw [← Option.some.inj hx]
          have h8 := hnone (some q) hspan
          have h9 : rvec P.p q ∈ allSpan P.p (Function.update pivs' k (some q)) :=
            Submodule.subset_span ⟨k, q, by rw [Function.update_self], rfl⟩
          have := Submodule.sub_mem _ h9 h8
          rwa [sub_sub_cancel] at this
        · exact Submodule.subset_span ⟨j, x, by rw [Function.update_of_ne hik]; exact hx, rfl⟩
    · intro i x hi hx j hji hj
      rw [hsome] at hj
      by_cases hik : i = k
      · subst hik; rw [Function.update_self] at hx
        rw [← Option.some.inj hx]
        rcases Nat.lt_or_ge j k with hjk | hjk
        · exact f2.below hjk
        · rw [f4]
          obtain ⟨y, hy⟩ := Option.ne_none_iff_exists'.mp hj
          have := (h.row j y hy).1.lt
          exact b.zero j (by omega) (by omega) (by rw [Function.update_of_ne hji]; exact hj)
      · rw [Function.update_of_ne hik] at hx
        exact h.red i x (by omega) hx j hji hj

theorem dinterLoop_ok {P : Par} {Ok : Nat → (Nat → Int) → Prop} (hP : DParOk P Ok)
    {pivs : Nat → Option Row} (hrow : NpsOk P pivs) :
    ∀ m, m ≤ P.ncols - P.ncl → ∃ pivs', dinterLoop P m pivs = some pivs' ∧ DInterOk P pivs m pivs'
  | 0, _ => ⟨pivs, rfl, fun _ => Iff.rfl, hrow, rfl, fun i r hi hir => by
      have := (hrow i r hir).1.lt; omega⟩
  | m + 1, hm => by
    obtain ⟨p1, e1, a1⟩ := dinterLoop_ok hP hrow m (by omega)
    obtain ⟨p2, e2, a2⟩ := dinterStep_ok hP a1
    exact ⟨p2, by rw [dinterLoop, e1, Option.bind_some, e2], a2⟩

/-! ### Conversion -/

theorem rvec_filter (p : Nat) : ∀ r : Row, rvec p (r.filter fun t => t.2 ≠ 0) = rvec p r
  | [] => rfl
  | t :: r => by
    rw [List.filter_cons]
    split_ifs with h
    · rw [rvec_cons, rvec_cons, rvec_filter p r]
    · have h' : t.2 = 0 := by simpa using h
      rw [rvec_filter p r, rvec_cons, h']
      simp

theorem rvec_at (p : Nat) : ∀ {r : Row}, (r.map Prod.fst).Nodup → ∀ {t : Nat × Nat}, t ∈ r →
    rvec p r t.1 = ((t.2 : Nat) : ZMod p)
  | [], _, _, ht => by simp at ht
  | u :: r, hnd, t, ht => by
    rw [List.map_cons, List.nodup_cons] at hnd
    rw [rvec_cons, Pi.add_apply]
    rcases List.mem_cons.mp ht with rfl | ht
    · rw [Pi.single_eq_same, rvec_zero p r t.1 (fun w hw he => hnd.1 (by rw [← he]; exact List.mem_map_of_mem hw)),
        add_zero]
    · have : t.1 ≠ u.1 := fun he => hnd.1 (by rw [← he]; exact List.mem_map_of_mem ht)
      rw [Pi.single_eq_of_ne this, rvec_at p hnd.2 ht, zero_add]

theorem allSpan_toSparse (p : Nat) (dm : Nat → Option Row) : allSpan p (toSparse dm) = allSpan p dm := by
  unfold allSpan
  congr 1
  ext v
  constructor
  · rintro ⟨j, r, h, rfl⟩
    unfold toSparse at h
    rw [Option.map_eq_some_iff] at h
    obtain ⟨q, hq, rfl⟩ := h
    exact ⟨j, q, hq, rvec_filter p q⟩
  · rintro ⟨j, r, h, rfl⟩
    exact ⟨j, _, by unfold toSparse; rw [h]; rfl, (rvec_filter p r).symm⟩

/-- Interreduction and conversion of an array of dense pivots. -/
theorem dfinal_spec {P : Par} {Ok : Nat → (Nat → Int) → Prop} (hP : DParOk P Ok) {pivs : Nat → Option Row}
    (hrow : NpsOk P fun c => if c < P.ncl then none else pivs c) :
    ∃ dm, dinterreduce P pivs = some dm ∧ Rref P.p P.ncols (toSparse dm) ∧
      allSpan P.p (toSparse dm) = allSpan P.p (fun c => if c < P.ncl then none else pivs c) ∧
      (∀ i, i < P.ncl → toSparse dm i = none) := by
  obtain ⟨dm, e, a⟩ := dinterLoop_ok hP hrow (P.ncols - P.ncl) le_rfl
  have hcol : ∀ i r, toSparse dm i = some r → ∃ q, dm i = some q ∧ r = q.filter fun t => t.2 ≠ 0 := by
    intro i r h
    unfold toSparse at h
    rw [Option.map_eq_some_iff] at h
    obtain ⟨q, hq, rfl⟩ := h
    exact ⟨q, hq, rfl⟩
  refine ⟨dm, e, ⟨?_, ?_⟩, by rw [allSpan_toSparse, a.span], ?_⟩
  · intro i r h
    obtain ⟨q, hq, rfl⟩ := hcol i r h
    obtain ⟨b1, b2, b3⟩ := a.row i q hq
    have hs : ((q.filter fun t => t.2 ≠ 0).map Prod.fst).Pairwise (· < ·) :=
      b3.sublist (List.filter_sublist.map _)
    refine ⟨PivRow.of_sorted ?_ hs (fun t ht => b1.bound t (List.mem_of_mem_filter ht)), hs, ?_⟩
    · obtain ⟨q', hq'⟩ := b1.head
      exact ⟨q'.filter fun t => t.2 ≠ 0, by rw [hq', List.filter_cons]; simp⟩
    · intro t ht
      have := (List.mem_filter.mp ht).2
      have : t.2 ≠ 0 := by simpa using this
      omega
  · intro i r h t ht hti
    obtain ⟨q, hq, rfl⟩ := hcol i r h
    obtain ⟨b1, b2, b3⟩ := a.row i q hq
    rw [List.mem_filter] at ht
    have ht0 : t.2 ≠ 0 := by simpa using ht.2
    unfold toSparse
    rw [Option.map_eq_none_iff]
    by_contra hne
    have h1 := a.red i q (by have := b1.lt; omega) hq t.1 hti hne
    rw [rvec_at P.p b1.nodup ht.1, ZMod.natCast_eq_zero_iff] at h1
    have := Nat.le_of_dvd (by omega) h1
    have := (b1.bound t ht.1).2
    omega
  · intro i hi
    unfold toSparse
    rw [Option.map_eq_none_iff, a.same, if_pos hi]

end Verif.DenseLA
