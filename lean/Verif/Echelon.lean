import Verif.Normalize
import Mathlib.Algebra.BigOperators.Group.Finset.Basic
import Mathlib.Data.Fintype.BigOperators
import Mathlib.Algebra.Order.BigOperators.Group.Finset

/-! Model of `exact_sparse_reduced_echelon_form_ff_32`, la_ff_32.c 2588-2763 (also `_ff_16`, `_ff_8`):
a parallel phase, in which the rows are reduced by the shared array of pivots and new pivots are entered
with compare-and-swap, and a sequential interreduction. -/

namespace Verif.Echelon
open Verif.RowReduce Verif.Normalize

/-- What a thread does with one row.  `red`: inside the column loop before column `i`, started at
column `start`; `cas`: the sparse row is written and normalised, compare-and-swap comes next; `zero`: the
row was reduced to zero; `won`: the row was entered as a pivot.  `first` is a ghost flag: first pass of
the `do … while (!k)` loop. -/
inductive Th where
  | red (start i : Nat) (first : Bool) (s : St)
  | cas (start : Nat) (first : Bool) (dr : Nat → Int) (r : Row)
  | zero
  | won

/-- Parameters of the computation. `w`, `out`: widths for the normalisation. -/
structure Par where
  elim : Int → Row → (Nat → Int) → Option (Nat → Int)
  p : Nat
  w : Nat
  out : Nat
  ncl : Nat
  ncols : Nat

/-- One atomic step of a thread, la_ff_32.c 2645-2682.  One pass of the column loop reads `pivs[i]` once
(the C code reads it twice; an entry is never changed once it is set).  Leaving the column loop, writing
the sparse row and normalising it only touch memory of the thread and are one step.  `none`: undefined
behaviour.  Memory is sequentially consistent in the model. -/
def thStep (P : Par) (pivs : Nat → Option Row) : Th → Option (Th × (Nat → Option Row))
  | .red st i f s =>
    if i < P.ncols then (colStep P.elim P.p pivs s i).map fun s' => (.red st (i + 1) f s', pivs)
    else if s.k = 0 then some (.zero, pivs)
    else if (extract P.ncl P.ncols s.dr).length ≤ s.k then
      (normRow P.w P.out P.p (extract P.ncl P.ncols s.dr)).map fun r => (.cas st f s.dr r, pivs)
    else none
  | .cas _ _ dr r =>
    match r with
    | [] => none
    | t :: _ => match pivs t.1 with
      | none => some (.won, Function.update pivs t.1 (some r))
      | some _ => some (.red t.1 t.1 false { dr := dr, np := none, k := 0 }, pivs)
  | .zero => some (.zero, pivs)
  | .won => some (.won, pivs)

def Th.finished : Th → Bool
  | .zero => true
  | .won => true
  | _ => false

/-- Global state: shared pivot array, one thread state per row. -/
structure Conf (n : Nat) where
  pivs : Nat → Option Row
  th : Fin n → Th

/-- Row `t` (not finished) makes a step. -/
inductive Step (P : Par) {n : Nat} : Conf n → Conf n → Prop
  | mk (c : Conf n) (t : Fin n) (x : Th) (pivs' : Nat → Option Row) :
      (c.th t).finished = false → thStep P c.pivs (c.th t) = some (x, pivs') →
      Step P c { pivs := pivs', th := Function.update c.th t x }

/-- Executions: any interleaving. -/
inductive Exec (P : Par) {n : Nat} : Nat → Conf n → Conf n → Prop
  | refl (c : Conf n) : Exec P 0 c c
  | step {m : Nat} {c c' c'' : Conf n} : Exec P m c c' → Step P c' c'' → Exec P (m + 1) c c''

/-- Filling the dense row from a sparse one, la_ff_32.c 2635-2644. -/
def fill (r : Row) : Nat → Int := r.foldl (fun dr t => Function.update dr t.1 (t.2 : Int)) (fun _ => 0)

/-- Initial configuration: row `t` starts at column `sc t`: `npiv[OFFSET]`, resp. 0 for normal forms
(la_ff_32.c 2649). -/
def initConf (pivs : Nat → Option Row) {n : Nat} (rows : Fin n → Row) (sc : Fin n → Nat) : Conf n :=
  { pivs := pivs, th := fun t => .red (sc t) (sc t) true { dr := fill (rows t), np := none, k := 0 } }

/-! ### Invariants -/

/-- Span of all pivot rows. -/
def allSpan (p : Nat) (pivs : Nat → Option Row) : Submodule (ZMod p) (Nat → ZMod p) :=
  Submodule.span (ZMod p) { v | ∃ j r, pivs j = some r ∧ v = rvec p r }

theorem pivSpan_le_all (p : Nat) (pivs : Nat → Option Row) (a b : Nat) :
    pivSpan p pivs a b ≤ allSpan p pivs := by
  apply Submodule.span_mono
  rintro v ⟨j, r, _, _, h3, h4⟩
  exact ⟨j, r, h3, h4⟩

/-- Static facts about the parameters. -/
structure ParOk (P : Par) (Ok : Nat → (Nat → Int) → Prop) : Prop where
  elim : ElimSpec P.p P.ncols P.elim Ok
  prime : P.p.Prime
  hw : P.p < 2 ^ (P.w - 1)
  ho : P.p ≤ 2 ^ P.out
  hww : (P.p - 1) * (P.p - 1) < 2 ^ P.w
  h32 : P.p ≤ 2 ^ 32
  hncl : P.ncl ≤ P.ncols

/-- Invariant of the pivot array; `pivs0` are the known pivots, `T` the space spanned by everything. -/
structure PivOk (P : Par) (pivs0 pivs : Nat → Option Row) (T : Submodule (ZMod P.p) (Nat → ZMod P.p)) :
    Prop where
  row : ∀ i r, pivs i = some r → PivRow P.p P.ncols i r
  ext : ∀ i r, pivs0 i = some r → pivs i = some r
  sub : allSpan P.p pivs ≤ T
  fresh : ∀ i r, pivs i = some r → pivs0 i = none → P.ncl ≤ i ∧
    (r.map Prod.fst).Pairwise (· < ·) ∧ ∀ t ∈ r, 0 < t.2 ∧ pivs0 t.1 = none

/-- Invariant of a thread working on the row with vector `v`. -/
def ThOk (P : Par) (Ok : Nat → (Nat → Int) → Prop) (pivs0 pivs : Nat → Option Row)
    (v : Nat → ZMod P.p) : Th → Prop
  | .red st i f s => st ≤ i ∧ i ≤ P.ncols ∧ Ok (i - st) s.dr ∧
      vec P.p s.dr - v ∈ allSpan P.p pivs ∧ (∀ c, c < st → s.dr c = 0) ∧
      (∀ c, P.ncols ≤ c → s.dr c = 0) ∧
      (∀ c, c < i → 0 ≤ s.dr c ∧ s.dr c < P.p ∧ (pivs0 c ≠ none → s.dr c = 0)) ∧
      (∀ c, c < P.ncl → c < st ∨ pivs0 c ≠ none) ∧
      s.k = (nz s.dr st (i - st)).length ∧ (f = false → pivs st ≠ none ∧ (st < i → s.dr st = 0))
  | .cas st f dr r => vec P.p dr - v ∈ allSpan P.p pivs ∧ (∀ c, 0 ≤ dr c ∧ dr c < P.p) ∧
      (∀ c, P.ncols ≤ c → dr c = 0) ∧ (∀ c, c < P.ncl → c < st ∨ pivs0 c ≠ none) ∧
      (∃ c, PivRow P.p P.ncols c r ∧ st ≤ c ∧ (f = false → st < c) ∧ P.ncl ≤ c ∧ (∀ c', c' < c → dr c' = 0)) ∧
      ((r.map Prod.fst).Pairwise (· < ·) ∧ ∀ t ∈ r, 0 < t.2 ∧ pivs0 t.1 = none) ∧
      ∃ u : ZMod P.p, u ≠ 0 ∧ rvec P.p r = u • vec P.p dr
  | .zero => v ∈ allSpan P.p pivs
  | .won => v ∈ allSpan P.p pivs

theorem allSpan_mono {p : Nat} {pivs pivs' : Nat → Option Row}
    (h : ∀ i r, pivs i = some r → pivs' i = some r) : allSpan p pivs ≤ allSpan p pivs' := by
  apply Submodule.span_mono
  rintro v ⟨j, r, h3, h4⟩
  exact ⟨j, r, h j r h3, h4⟩

/-- The invariant of a thread is kept when other threads enter pivots. -/
theorem ThOk.mono {P : Par} {Ok : Nat → (Nat → Int) → Prop} {pivs0 pivs pivs' : Nat → Option Row}
    {v : Nat → ZMod P.p} (h : ∀ i r, pivs i = some r → pivs' i = some r) :
    ∀ {x : Th}, ThOk P Ok pivs0 pivs v x → ThOk P Ok pivs0 pivs' v x
  | .red st i f s, ⟨h1, h2, h3, h4, h5, h6, h7, h8, h9, h10⟩ =>
    ⟨h1, h2, h3, allSpan_mono h h4, h5, h6, h7, h8, h9, fun hf => ⟨by
      obtain ⟨r, hr⟩ := Option.ne_none_iff_exists'.mp (h10 hf).1
      rw [h st r hr]; exact Option.some_ne_none _, (h10 hf).2⟩⟩
  | .cas st f dr r, ⟨h1, h2, h3, h4, h5, h6, h7⟩ => ⟨allSpan_mono h h1, h2, h3, h4, h5, h6, h7⟩
  | .zero, h1 => allSpan_mono h h1
  | .won, h1 => allSpan_mono h h1

theorem nz_snoc (dr : Nat → Int) (i cnt : Nat) :
    nz dr i (cnt + 1) = nz dr i cnt ++ (if dr (i + cnt) ≠ 0 then [i + cnt] else []) := by
  unfold nz
  rw [List.range'_concat, List.filter_append]
  congr 1
  by_cases h : dr (i + cnt) = 0 <;> simp [h]

/-- Bound on the number of steps a thread can still make. -/
def mu (P : Par) : Th → Nat
  | .red st i f _ => (2 * (P.ncols - st) + (if f then 1 else 0)) * (P.ncols + 2) + (P.ncols - i) + 2
  | .cas st f _ _ => (2 * (P.ncols - st) + (if f then 1 else 0)) * (P.ncols + 2) + 1
  | .zero => 0
  | .won => 0

/-- A step of a thread: no undefined behaviour, the invariants are kept, the pivot array only grows, the
measure decreases. -/
theorem thStep_ok {P : Par} {Ok : Nat → (Nat → Int) → Prop} (hP : ParOk P Ok)
    {pivs0 pivs : Nat → Option Row} {T : Submodule (ZMod P.p) (Nat → ZMod P.p)} {v : Nat → ZMod P.p}
    (hv : v ∈ T) (hpiv : PivOk P pivs0 pivs T) {x : Th} (hx : ThOk P Ok pivs0 pivs v x)
    (hf : x.finished = false) :
    ∃ x' pivs', thStep P pivs x = some (x', pivs') ∧ ThOk P Ok pivs0 pivs' v x' ∧
      PivOk P pivs0 pivs' T ∧ (∀ i r, pivs i = some r → pivs' i = some r) ∧ mu P x' < mu P x := by
  have hpf : Fact P.p.Prime := ⟨hP.prime⟩
  rcases x with ⟨st, i, f, s⟩ | ⟨st, f, dr, r⟩ | _ | _
  · obtain ⟨h1, h2, h3, h4, h5, h6, h7, h8, h9, h10⟩ := hx
    by_cases hi : i < P.ncols
    · -- one pass of the column loop
      obtain ⟨s', e, a⟩ := colStep_spec hP.elim hP.prime.pos (hpiv.row i) h3
        (by omega : i - st < P.ncols) hi
      refine ⟨.red st (i + 1) f s', pivs, ?_, ?_, hpiv, fun _ _ h => h, ?_⟩
      · simp only [thStep]; rw [if_pos hi, e]; rfl
      · refine ⟨by omega, hi, ?_, ?_, ?_, ?_, ?_, h8, ?_, ?_⟩
        · have := a.ok
          rw [show i - st + 1 = i + 1 - st by omega] at this
          exact this
        · have := Submodule.add_mem _ (pivSpan_le_all _ _ _ _ a.span) h4
          rwa [sub_add_sub_cancel] at this
        · intro c hc; rw [a.below c (by omega)]; exact h5 c hc
        · intro c hc; rw [a.above c hc]; exact h6 c hc
        · intro c hc
          by_cases hci : c = i
          · subst hci
            refine ⟨a.at0.1, a.at0.2.1, fun h0 => a.at0.2.2 ?_⟩
            obtain ⟨r, hr⟩ := Option.ne_none_iff_exists'.mp h0
            rw [hpiv.ext c r hr]; exact Option.some_ne_none _
          · rw [a.below c (by omega)]; exact h7 c (by omega)
        · rw [a.k, h9, show i + 1 - st = (i - st) + 1 by omega, nz_snoc, show st + (i - st) = i by omega,
            List.length_append, nz_congr (dr := s.dr) (dr' := s'.dr)
              (fun c _ hc => (a.below c (by omega)).symm)]
          split_ifs <;> simp
        · intro hff
          refine ⟨(h10 hff).1, fun _ => ?_⟩
          by_cases hsi : st = i
          · subst hsi; exact a.at0.2.2 (h10 hff).1
          · rw [a.below st (by omega)]; exact (h10 hff).2 (by omega)
      · simp only [mu]; omega
    · have hin : i = P.ncols := by omega
      subst hin
      have hz : ∀ c, c < P.ncl → s.dr c = 0 := fun c hc => by
        rcases h8 c hc with h | h
        · exact h5 c h
        · exact (h7 c (lt_of_lt_of_le hc hP.hncl)).2.2 h
      have hrange : ∀ c, 0 ≤ s.dr c ∧ s.dr c < P.p := by
        intro c
        by_cases hc : c < P.ncols
        · exact ⟨(h7 c hc).1, (h7 c hc).2.1⟩
        · rw [h6 c (by omega)]
          exact ⟨le_refl _, by exact_mod_cast hP.prime.pos⟩
      by_cases hk : s.k = 0
      · -- zero row
        refine ⟨.zero, pivs, ?_, ?_, hpiv, fun _ _ h => h, ?_⟩
        · simp only [thStep]; rw [if_neg (lt_irrefl _), if_pos hk]
        · rw [h9, List.length_eq_zero_iff] at hk
          have hv0 : vec P.p s.dr = 0 := by
            funext c
            have hc0 : s.dr c = 0 := by
              by_contra hne
              have hc : c ∈ nz s.dr st (P.ncols - st) := by
                unfold nz
                rw [List.mem_filter, List.mem_range'_1]
                refine ⟨⟨?_, ?_⟩, by simpa using hne⟩
                · by_contra h; exact hne (h5 c (by omega))
                · by_contra h; exact hne (h6 c (by omega))
              rw [hk] at hc
              exact List.not_mem_nil hc
            unfold vec; rw [hc0]; simp
          rw [hv0, zero_sub] at h4
          exact (Submodule.neg_mem_iff _).mp h4
        · simp only [mu]; omega
      · -- sparse row
        have hmem : ∀ c, c ∈ (List.range' P.ncl (P.ncols - P.ncl)).filter (fun c => s.dr c ≠ 0) ↔ s.dr c ≠ 0 := by
          intro c
          rw [List.mem_filter, List.mem_range'_1]
          constructor
          · intro h; simpa using h.2
          · intro h
            refine ⟨⟨?_, ?_⟩, by simpa using h⟩
            · by_contra hc; exact h (hz c (by omega))
            · by_contra hc; exact h (h6 c (by omega))
        have hlen : (extract P.ncl P.ncols s.dr).length ≤ s.k := by
          unfold extract
          rw [List.length_map, h9]
          apply List.Subperm.length_le
          apply List.subperm_of_subset
          · exact (List.nodup_range' (step := 1)).filter _
          · intro c hc
            have hne := (hmem c).mp hc
            unfold nz
            rw [List.mem_filter, List.mem_range'_1]
            refine ⟨⟨?_, ?_⟩, by simpa using hne⟩
            · by_contra h; exact hne (h5 c (by omega))
            · by_contra h; exact hne (h6 c (by omega))
        have hsm : ∀ c, s.dr c % 2 ^ 32 = s.dr c := fun c => Int.emod_eq_of_lt (hrange c).1 (by
            have : (P.p : Int) ≤ 2 ^ 32 := by exact_mod_cast hP.h32
            have := (hrange c).2
            linarith)
        have hent : ∀ t ∈ extract P.ncl P.ncols s.dr, P.ncl ≤ t.1 ∧ st ≤ t.1 ∧ t.1 < P.ncols ∧ 0 < t.2 ∧
            t.2 < P.p ∧ pivs0 t.1 = none ∧ s.dr t.1 ≠ 0 := by
          intro t ht
          unfold extract at ht
          rw [List.mem_map] at ht
          obtain ⟨c, hc, rfl⟩ := ht
          have hne := (hmem c).mp hc
          rw [List.mem_filter, List.mem_range'_1] at hc
          obtain ⟨r0, r1⟩ := hrange c
          simp only [hsm]
          refine ⟨hc.1.1, ?_, by omega, by omega, by omega, ?_, hne⟩
          · by_contra h; exact hne (h5 c (by omega))
          · by_contra h; exact hne ((h7 c (by omega)).2.2 h)
        have hrv : rvec P.p (extract P.ncl P.ncols s.dr) = vec P.p s.dr := by
          funext c
          unfold extract
          refine (rvec_map P.p (fun c : Nat => Int.toNat (s.dr c % (2 : Int) ^ 32)) _
            ((List.nodup_range' (step := 1)).filter _) c).trans ?_
          unfold vec
          by_cases hc : s.dr c = 0
          · rw [if_neg (by rw [hmem]; simp [hc]), hc]; simp
          · rw [if_pos (by rw [hmem]; exact hc)]
            simp only [hsm]
            rw [← Int.cast_natCast, Int.toNat_of_nonneg (hrange c).1]
        have hsort : ((extract P.ncl P.ncols s.dr).map Prod.fst).Pairwise (· < ·) := by
          unfold extract
          rw [List.map_map]
          have : (Prod.fst ∘ fun c => (c, (s.dr c % 2 ^ 32).toNat)) = id := rfl
          rw [this, List.map_id]
          exact (List.pairwise_lt_range' (step := 1)).filter _
        have hcov : ∀ c, s.dr c ≠ 0 → c ∈ (extract P.ncl P.ncols s.dr).map Prod.fst := by
          intro c hc
          unfold extract
          rw [List.map_map]
          have : (Prod.fst ∘ fun c => (c, (s.dr c % 2 ^ 32).toNat)) = id := rfl
          rw [this, List.map_id]
          exact (hmem c).mpr hc
        generalize hE : extract P.ncl P.ncols s.dr = E at *
        rcases E with _ | ⟨t, E⟩
        · exfalso
          apply hk
          rw [h9, List.length_eq_zero_iff]
          unfold nz
          rw [List.filter_eq_nil_iff]
          intro c _ hc
          have := hcov c (by simpa using hc)
          simp at this
        · obtain ⟨r', u, e1, e2, ⟨r'', e3⟩, e4, e5, e6⟩ := normRow_spec hP.hw hP.ho hP.hww hP.prime
            (fun u hu => ⟨(hent u hu).2.2.2.1, (hent u hu).2.2.2.2.1⟩ : ∀ u ∈ t :: E, 0 < u.2 ∧ u.2 < P.p)
          have hcols : ∀ w ∈ r', ∃ w' ∈ t :: E, w'.1 = w.1 := by
            intro w hw
            have : w.1 ∈ r'.map Prod.fst := List.mem_map_of_mem hw
            rw [e2] at this
            obtain ⟨w', h, h'⟩ := List.mem_map.mp this
            exact ⟨w', h, h'⟩
          refine ⟨.cas st f s.dr r', pivs, ?_, ?_, hpiv, fun _ _ h => h, ?_⟩
          · simp only [thStep]
            rw [if_neg (lt_irrefl _), if_neg hk, hE, if_pos hlen, e1]; rfl
          · refine ⟨h4, hrange, h6, h8, ⟨t.1, PivRow.of_sorted ⟨r'', e3⟩ (by rw [e2]; exact hsort) ?_, ?_, ?_, ?_, ?_⟩, ⟨by rw [e2]; exact hsort, ?_⟩, ?_⟩
            · intro w hw
              obtain ⟨w', h, h'⟩ := hcols w hw
              rw [← h']
              exact ⟨(hent w' h).2.2.1, (e4 w hw).2⟩
            · exact (hent t List.mem_cons_self).2.1
            · intro hff
              have := (hent t List.mem_cons_self).2.1
              rcases Nat.lt_or_eq_of_le this with h | h
              · exact h
              · exfalso
                have hne := (hent t List.mem_cons_self).2.2.2.2.2.2
                rw [← h] at hne
                exact hne ((h10 hff).2 (by rw [h]; exact (hent t List.mem_cons_self).2.2.1))
            · exact (hent t List.mem_cons_self).1
            · intro c' hc'
              by_contra hne
              have := hcov c' hne
              rw [List.map_cons] at this hsort
              rw [List.pairwise_cons] at hsort
              rcases List.mem_cons.mp this with h | h
              · omega
              · have := hsort.1 c' h; omega
            · intro w hw
              obtain ⟨w', h, h'⟩ := hcols w hw
              rw [← h']
              exact ⟨(e4 w hw).1, (hent w' h).2.2.2.2.2.1⟩
            · exact ⟨((u : Nat) : ZMod P.p), e6, by rw [e5, hrv]⟩
          · simp only [mu]; omega
  · obtain ⟨h1, h2, h3, h4, ⟨c, h5a, h5b, h5c, h5d, h5e⟩, h6, u, hu, h7⟩ := hx
    obtain ⟨r', hr'⟩ := h5a.head
    have hc : c < P.ncols := (h5a.bound (c, 1) (by rw [hr']; exact List.mem_cons_self)).1
    rcases hpc : pivs c with _ | q
    · -- compare-and-swap succeeds
      have hext : ∀ i q, pivs i = some q → Function.update pivs c (some r) i = some q := by
        intro i q hq
        by_cases hic : i = c
        · subst hic; rw [hpc] at hq; exact absurd hq (by simp)
        · rw [Function.update_of_ne hic]; exact hq
      have hvd : vec P.p dr ∈ T := by
        have := Submodule.add_mem _ (hpiv.sub h1) hv
        rwa [sub_add_cancel] at this
      have hrT : rvec P.p r ∈ T := by rw [h7]; exact Submodule.smul_mem _ _ hvd
      refine ⟨.won, Function.update pivs c (some r), ?_, ?_, ⟨?_, ?_, ?_, ?_⟩, hext, ?_⟩
      · subst hr'
        simp only [thStep, hpc]
      · have h8 : vec P.p dr ∈ allSpan P.p (Function.update pivs c (some r)) := by
          have h9 : rvec P.p r ∈ allSpan P.p (Function.update pivs c (some r)) :=
            Submodule.subset_span ⟨c, r, by rw [Function.update_self], rfl⟩
          have h10 := Submodule.smul_mem _ u⁻¹ h9
          rwa [h7, smul_smul, inv_mul_cancel₀ hu, one_smul] at h10
        have := Submodule.sub_mem _ h8 (allSpan_mono hext h1)
        rwa [sub_sub_cancel] at this
      · intro i q hq
        by_cases hic : i = c
        · subst hic; rw [Function.update_self] at hq; rw [← Option.some.inj hq]; exact h5a
        · rw [Function.update_of_ne hic] at hq; exact hpiv.row i q hq
      · intro i q hq; exact hext i q (hpiv.ext i q hq)
      · apply Submodule.span_le.mpr
        rintro w ⟨j, q, hq, rfl⟩
        by_cases hic : j = c
        · subst hic; rw [Function.update_self] at hq; rw [← Option.some.inj hq]; exact hrT
        · rw [Function.update_of_ne hic] at hq
          exact hpiv.sub (Submodule.subset_span ⟨j, q, hq, rfl⟩)
      · intro i q hq h0
        by_cases hic : i = c
        · subst hic; rw [Function.update_self] at hq; rw [← Option.some.inj hq]; exact ⟨h5d, h6⟩
        · rw [Function.update_of_ne hic] at hq; exact hpiv.fresh i q hq h0
      · simp only [mu]; omega
    · -- another thread was faster
      refine ⟨.red c c false { dr := dr, np := none, k := 0 }, pivs, ?_, ?_, hpiv, fun _ _ h => h, ?_⟩
      · subst hr'
        simp only [thStep, hpc]
      · refine ⟨le_refl _, hc.le, ?_, h1, h5e, h3, ?_, ?_, ?_, ?_⟩
        · rw [Nat.sub_self]; exact hP.elim.init dr h2
        · intro c' hc'
          refine ⟨(h2 c').1, (h2 c').2, fun _ => h5e c' hc'⟩
        · intro c' hc'
          rcases h4 c' hc' with h | h
          · left; omega
          · right; exact h
        · rw [Nat.sub_self]; simp [nz]
        · intro _
          exact ⟨by rw [hpc]; exact Option.some_ne_none _, fun h => absurd h (lt_irrefl _)⟩
      · simp only [mu]
        have hR : 2 * (P.ncols - c) + 1 ≤ 2 * (P.ncols - st) + (if f = true then 1 else 0) := by
          cases f
          · have := h5c rfl; simp; omega
          · simp; omega
        have := Nat.mul_le_mul_right (P.ncols + 2) hR
        rw [Nat.add_mul, Nat.one_mul] at this
        simp only [Bool.false_eq_true, if_false, Nat.add_zero]
        omega
  · simp [Th.finished] at hf
  · simp [Th.finished] at hf

/-! ### All interleavings -/

/-- Invariant of a configuration. -/
def ConfOk (P : Par) (Ok : Nat → (Nat → Int) → Prop) (pivs0 : Nat → Option Row)
    (T : Submodule (ZMod P.p) (Nat → ZMod P.p)) {n : Nat} (v : Fin n → Nat → ZMod P.p) (c : Conf n) : Prop :=
  PivOk P pivs0 c.pivs T ∧ ∀ t, ThOk P Ok pivs0 c.pivs (v t) (c.th t)

theorem step_ok {P : Par} {Ok : Nat → (Nat → Int) → Prop} (hP : ParOk P Ok)
    {pivs0 : Nat → Option Row} {T : Submodule (ZMod P.p) (Nat → ZMod P.p)} {n : Nat}
    {v : Fin n → Nat → ZMod P.p} (hv : ∀ t, v t ∈ T) {c c' : Conf n} (h : ConfOk P Ok pivs0 T v c)
    (hs : Step P c c') :
    ConfOk P Ok pivs0 T v c' ∧ (∑ t, mu P (c'.th t)) < ∑ t, mu P (c.th t) := by
  rcases hs with ⟨t, x, pivs', hf, e⟩
  obtain ⟨x', pivs'', e', a1, a2, a3, a4⟩ := thStep_ok hP (hv t) h.1 (h.2 t) hf
  rw [e] at e'
  obtain ⟨hx, hp⟩ := Prod.mk.inj (Option.some.inj e')
  rw [← hx] at a1 a4
  rw [← hp] at a1 a2 a3
  refine ⟨⟨a2, fun t' => ?_⟩, ?_⟩
  · by_cases ht : t' = t
    · subst ht; simp only [Function.update_self]; exact a1
    · simp only [Function.update_of_ne ht]; exact (h.2 t').mono a3
  · apply Finset.sum_lt_sum
    · intro t' _
      by_cases ht : t' = t
      · subst ht; simp only [Function.update_self]; exact a4.le
      · simp only [Function.update_of_ne ht]; exact le_refl _
    · exact ⟨t, Finset.mem_univ _, by simp only [Function.update_self]; exact a4⟩

theorem exec_ok {P : Par} {Ok : Nat → (Nat → Int) → Prop} (hP : ParOk P Ok)
    {pivs0 : Nat → Option Row} {T : Submodule (ZMod P.p) (Nat → ZMod P.p)} {n : Nat}
    {v : Fin n → Nat → ZMod P.p} (hv : ∀ t, v t ∈ T) {c c' : Conf n} {m : Nat}
    (h : ConfOk P Ok pivs0 T v c) (hs : Exec P m c c') :
    ConfOk P Ok pivs0 T v c' ∧ m + (∑ t, mu P (c'.th t)) ≤ ∑ t, mu P (c.th t) := by
  induction hs with
  | refl => exact ⟨h, by omega⟩
  | step _ hs ih =>
    obtain ⟨b1, b2⟩ := ih h
    obtain ⟨a1, a2⟩ := step_ok hP hv b1 hs
    exact ⟨a1, by omega⟩

/-! ### The initial configuration -/

/-- A row of the lower part of the matrix: different columns in `[sc, ncols)`, coefficients reduced. -/
structure InRow (p ncols sc : Nat) (r : Row) : Prop where
  nodup : (r.map Prod.fst).Nodup
  bound : ∀ t ∈ r, sc ≤ t.1 ∧ t.1 < ncols ∧ t.2 < p

theorem foldl_fill (p : Nat) : ∀ (r : Row) (dr : Nat → Int), (r.map Prod.fst).Nodup →
    (∀ t ∈ r, dr t.1 = 0) →
    vec p (r.foldl (fun dr t => Function.update dr t.1 (t.2 : Int)) dr) = vec p dr + rvec p r
  | [], dr, _, _ => by rw [List.foldl_nil, rvec_nil, add_zero]
  | t :: r, dr, hnd, h0 => by
    rw [List.map_cons, List.nodup_cons] at hnd
    rw [List.foldl_cons, foldl_fill p r _ hnd.2 ?_, vec_update, rvec_cons, h0 t List.mem_cons_self]
    · rw [sub_zero, Int.cast_natCast, add_assoc]
    · intro t' ht'
      have : t'.1 ≠ t.1 := fun he => hnd.1 (by rw [← he]; exact List.mem_map_of_mem ht')
      rw [Function.update_of_ne this]
      exact h0 t' (List.mem_cons_of_mem _ ht')

theorem fill_vec (p : Nat) (r : Row) (h : (r.map Prod.fst).Nodup) : vec p (fill r) = rvec p r := by
  unfold fill
  rw [foldl_fill p r _ h (fun _ _ => rfl)]
  have : vec p (fun _ => 0) = 0 := by funext c; simp [vec]
  rw [this, zero_add]

theorem fill_range (p : Nat) (hp : 0 < p) (r : Row) (h : ∀ t ∈ r, t.2 < p) (c : Nat) :
    0 ≤ fill r c ∧ fill r c < p := by
  unfold fill
  have : ∀ (r : Row) (dr : Nat → Int), (∀ t ∈ r, t.2 < p) → (∀ c, 0 ≤ dr c ∧ dr c < (p : Int)) →
      ∀ c, 0 ≤ r.foldl (fun dr t => Function.update dr t.1 (t.2 : Int)) dr c ∧
        r.foldl (fun dr t => Function.update dr t.1 (t.2 : Int)) dr c < p := by
    intro r
    induction r with
    | nil => intro dr _ h; exact h
    | cons t r ih =>
      intro dr hr h
      apply ih _ (fun t ht => hr t (List.mem_cons_of_mem _ ht))
      intro c
      by_cases hc : c = t.1
      · subst hc; simp only [Function.update_self]
        exact ⟨by positivity, by exact_mod_cast hr t List.mem_cons_self⟩
      · simp only [Function.update_of_ne hc]; exact h c
  exact this r _ h (fun _ => ⟨le_refl _, by exact_mod_cast hp⟩) c

theorem fill_zero (r : Row) (c : Nat) (h : ∀ t ∈ r, t.1 ≠ c) : fill r c = 0 := by
  unfold fill
  have : ∀ (r : Row) (dr : Nat → Int), (∀ t ∈ r, t.1 ≠ c) →
      r.foldl (fun dr t => Function.update dr t.1 (t.2 : Int)) dr c = dr c := by
    intro r
    induction r with
    | nil => intro _ _; rfl
    | cons t r ih =>
      intro dr h
      rw [List.foldl_cons, ih _ (fun t ht => h t (List.mem_cons_of_mem _ ht)),
        Function.update_of_ne (Ne.symm (h t List.mem_cons_self))]
  exact this r _ h

/-- The space spanned by the known pivots and the rows to be reduced. -/
def total (p : Nat) (pivs0 : Nat → Option Row) {n : Nat} (rows : Fin n → Row) :
    Submodule (ZMod p) (Nat → ZMod p) :=
  allSpan p pivs0 ⊔ Submodule.span (ZMod p) (Set.range fun t => rvec p (rows t))

theorem init_ok {P : Par} {Ok : Nat → (Nat → Int) → Prop} (hP : ParOk P Ok) {pivs0 : Nat → Option Row}
    (hpiv : ∀ i r, pivs0 i = some r → PivRow P.p P.ncols i r) (hcl : ∀ c, c < P.ncl → pivs0 c ≠ none)
    {n : Nat} {rows : Fin n → Row} {sc : Fin n → Nat} (hsc : ∀ t, sc t ≤ P.ncols)
    (hr : ∀ t, InRow P.p P.ncols (sc t) (rows t)) :
    ConfOk P Ok pivs0 (total P.p pivs0 rows) (fun t => rvec P.p (rows t)) (initConf pivs0 rows sc) := by
  refine ⟨⟨hpiv, fun _ _ h => h, le_sup_left, fun i r h h' => ?_⟩, fun t => ?_⟩
  · simp only [initConf] at h; rw [h] at h'; exact absurd h' (by simp)
  · have hnd : ((rows t).map Prod.fst).Nodup := (hr t).nodup
    have hlow : ∀ c, c < sc t → fill (rows t) c = 0 := fun c hc => fill_zero _ _ (fun u hu => by
      have := ((hr t).bound u hu).1; omega)
    have hran := fill_range P.p hP.prime.pos (rows t) (fun u hu => ((hr t).bound u hu).2.2)
    refine ⟨le_refl _, hsc t, ?_, ?_, hlow, ?_, ?_, fun c hc => Or.inr (hcl c hc), ?_, fun h => by simp at h⟩
    · rw [Nat.sub_self]; exact hP.elim.init _ hran
    · simp only [fill_vec _ _ hnd, sub_self]; exact Submodule.zero_mem _
    · intro c hc; exact fill_zero _ _ (fun u hu => by have := ((hr t).bound u hu).2.1; omega)
    · intro c hc; exact ⟨(hran c).1, (hran c).2, fun _ => hlow c hc⟩
    · rw [Nat.sub_self]; simp [nz]

theorem final_span {P : Par} {Ok : Nat → (Nat → Int) → Prop} {pivs0 : Nat → Option Row}
    {n : Nat} {rows : Fin n → Row} {c : Conf n}
    (h : ConfOk P Ok pivs0 (total P.p pivs0 rows) (fun t => rvec P.p (rows t)) c)
    (hfin : ∀ t, (c.th t).finished = true) : allSpan P.p c.pivs = total P.p pivs0 rows := by
  apply le_antisymm h.1.sub
  apply sup_le (allSpan_mono h.1.ext)
  apply Submodule.span_le.mpr
  rintro _ ⟨t, rfl⟩
  have h1 := h.2 t
  have h2 := hfin t
  rcases hx : c.th t with _ | _ | _ | _
  · rw [hx] at h2; simp [Th.finished] at h2
  · rw [hx] at h2; simp [Th.finished] at h2
  · rw [hx] at h1; exact h1
  · rw [hx] at h1; exact h1

/-! ### Interreduction -/

/-- First column of a row, `ds[0]`. -/
def headCol : Row → Nat
  | [] => 0
  | t :: _ => t.1

/-- One pass of the loop, la_ff_32.c 2719-2748: column `k`. -/
def interStep (P : Par) (pivs : Nat → Option Row) (k : Nat) : Option (Nat → Option Row) :=
  match pivs k with
  | none => some pivs
  | some r => (reduceRow P.elim P.p (Function.update pivs k none) P.ncl P.ncols (headCol r) (fill r)).map
      fun res => Function.update pivs k res.2

/-- The first `m` passes, columns `ncols-1`, `ncols-2`, ….  The loop makes `ncr = ncols - ncl` passes.
(`interreduce_matrix_rows_ff_32`, la_ff_32.c 4253-4325, is the same loop with `ncl = 0`.) -/
def interLoop (P : Par) : Nat → (Nat → Option Row) → Option (Nat → Option Row)
  | 0, pivs => some pivs
  | m + 1, pivs => (interLoop P m pivs).bind fun pivs => interStep P pivs (P.ncols - 1 - m)

/-- la_ff_32.c 2705-2748: the known pivots are dropped, the new ones are interreduced. -/
def interreduce (P : Par) (pivs : Nat → Option Row) : Option (Nat → Option Row) :=
  interLoop P (P.ncols - P.ncl) (fun c => if c < P.ncl then none else pivs c)

theorem rvec_zero (p : Nat) (r : Row) (c : Nat) (h : ∀ t ∈ r, t.1 ≠ c) : rvec p r c = 0 := by
  induction r with
  | nil => rfl
  | cons t r ih =>
    rw [rvec_cons, Pi.add_apply, ih (fun t ht => h t (List.mem_cons_of_mem _ ht)),
      Pi.single_eq_of_ne (Ne.symm (h t List.mem_cons_self)), add_zero]

theorem _root_.Verif.RowReduce.PivRow.at_head {p ncols i : Nat} {r : Row} (h : PivRow p ncols i r) : rvec p r i = 1 := by
  obtain ⟨r', hr'⟩ := h.head
  have hs := h.nodup
  rw [hr', rvec_cons, Pi.add_apply, Pi.single_eq_same]
  rw [hr', List.map_cons, List.nodup_cons] at hs
  rw [rvec_zero p r' i (fun t ht he => hs.1 (by
    simp only; rw [← he]; exact List.mem_map_of_mem ht))]
  simp

theorem _root_.Verif.RowReduce.PivRow.below {p ncols i : Nat} {r : Row} (h : PivRow p ncols i r) {c : Nat} (hc : c < i) :
    rvec p r c = 0 :=
  rvec_zero p r c (fun t ht => by have := h.col_ge t ht; omega)

theorem _root_.Verif.RowReduce.PivRow.lt {p ncols i : Nat} {r : Row} (h : PivRow p ncols i r) : i < ncols := by
  obtain ⟨r', hr'⟩ := h.head
  exact (h.bound (i, 1) (by rw [hr']; exact List.mem_cons_self)).1

/-- All vectors of a span vanish in a column if the generators do. -/
theorem span_vanish {p : Nat} {S : Set (Nat → ZMod p)} {c : Nat} (h : ∀ v ∈ S, v c = 0)
    {x : Nat → ZMod p} (hx : x ∈ Submodule.span (ZMod p) S) : x c = 0 := by
  induction hx using Submodule.span_induction with
  | mem v hv => exact h v hv
  | zero => rfl
  | add a b _ _ ha hb => rw [Pi.add_apply, ha, hb, add_zero]
  | smul a b _ hb => rw [Pi.smul_apply, hb, smul_zero]

/-- Invariant of the interreduction after `m` passes. -/
structure InterOk (P : Par) (pivs : Nat → Option Row) (m : Nat) (pivs' : Nat → Option Row) : Prop where
  same : ∀ c, pivs' c = none ↔ pivs c = none
  row : ∀ i r, pivs' i = some r → PivRow P.p P.ncols i r ∧ (r.map Prod.fst).Pairwise (· < ·) ∧
    ∀ t ∈ r, 0 < t.2
  span : allSpan P.p pivs' = allSpan P.p pivs
  red : ∀ i r, P.ncols ≤ i + m → pivs' i = some r → ∀ t ∈ r, t.1 ≠ i → pivs' t.1 = none

theorem interStep_ok {P : Par} {Ok : Nat → (Nat → Int) → Prop} (hP : ParOk P Ok)
    {pivs pivs' : Nat → Option Row} {m : Nat} (hm : m < P.ncols - P.ncl) (h : InterOk P pivs m pivs') :
    ∃ pivs'', interStep P pivs' (P.ncols - 1 - m) = some pivs'' ∧ InterOk P pivs (m + 1) pivs'' := by
  set k := P.ncols - 1 - m with hk
  have hpf : Fact P.p.Prime := ⟨hP.prime⟩
  unfold interStep
  rcases hr : pivs' k with _ | r
  · refine ⟨pivs', rfl, h.same, h.row, h.span, ?_⟩
    intro i r hi hir
    by_cases hik : i = k
    · subst hik; rw [hr] at hir; exact absurd hir (by simp)
    · exact h.red i r (by omega) hir
  · obtain ⟨hrow, hpos⟩ := h.row k r hr
    obtain ⟨r', hr'⟩ := hrow.head
    have hhead : headCol r = k := by rw [hr']; rfl
    have hnd : (r.map Prod.fst).Nodup := hrow.nodup
    have hpiv1 : ∀ i q, Function.update pivs' k none i = some q → PivRow P.p P.ncols i q := by
      intro i q hq
      by_cases hik : i = k
      · subst hik; rw [Function.update_self] at hq; exact absurd hq (by simp)
      · rw [Function.update_of_ne hik] at hq; exact (h.row i q hq).1
    obtain ⟨dr', res, e, a⟩ := reduceRow_spec hP.elim hP.prime.pos hP.h32 hpiv1 (ncl := P.ncl) (dpiv := k)
      (dr := fill r)
      (hP.elim.init _ (fill_range P.p hP.prime.pos r (fun t ht => (hrow.bound t ht).2)))
      (by omega) hP.hncl
      (fun c hc => fill_zero _ _ (fun t ht => by have := hrow.col_ge t ht; omega))
      (fun c hc => fill_zero _ _ (fun t ht => by have := (hrow.bound t ht).1; omega))
      (fun c hc => by left; omega)
    have hspan := a.span
    rw [fill_vec _ _ hnd] at hspan
    -- the leading coefficient stays 1
    have hlead : dr' k = 1 := by
      have h1 : (vec P.p dr' - rvec P.p r) k = 0 := by
        refine span_vanish ?_ hspan
        rintro v ⟨j, q, hj1, _, hq, rfl⟩
        have hjk : j ≠ k := by
          rintro rfl; rw [Function.update_self] at hq; exact absurd hq (by simp)
        exact (hpiv1 j q hq).below (by omega)
      rw [Pi.sub_apply, hrow.at_head, sub_eq_zero] at h1
      unfold vec at h1
      have h2 : ((dr' k : Int) : ZMod P.p) = ((1 : Int) : ZMod P.p) := by rw [h1]; simp
      rw [ZMod.intCast_eq_intCast_iff] at h2
      have h3 := a.range k
      rw [Int.ModEq, Int.emod_eq_of_lt h3.1 h3.2,
        Int.emod_eq_of_lt (by norm_num) (by exact_mod_cast hP.prime.one_lt)] at h2
      exact h2
    rcases res with _ | q
    · exfalso
      have := congrFun (a.null rfl) k
      unfold vec at this
      rw [hlead] at this
      simp at this
    · obtain ⟨q1, q2, q3, q4⟩ := a.row q rfl
      have hqk : ∃ q', q = (k, 1) :: q' := by
        rcases q with _ | ⟨t, q'⟩
        · exact absurd rfl q2
        · have ht1 : t.1 = k := by
            have hge := (q4 t List.mem_cons_self).2.1
            by_contra hne
            have : rvec P.p (t :: q') k = 0 := rvec_zero _ _ _ (fun u hu => by
              rw [List.map_cons, List.pairwise_cons] at q3
              rcases List.mem_cons.mp hu with rfl | hu
              · exact hne
              · have := q3.1 u.1 (List.mem_map_of_mem hu); omega)
            rw [q1] at this
            unfold vec at this
            rw [hlead] at this
            simp at this
          have ht2 : t.2 = 1 := by
            have hz : rvec P.p q' k = 0 := rvec_zero _ _ _ (fun u hu => by
              rw [List.map_cons, List.pairwise_cons] at q3
              have := q3.1 u.1 (List.mem_map_of_mem hu); omega)
            have h5 := congrFun q1 k
            rw [rvec_cons, Pi.add_apply, hz, add_zero, ht1, Pi.single_eq_same] at h5
            unfold vec at h5
            rw [hlead] at h5
            have h6 : ((t.2 : Nat) : ZMod P.p) = ((1 : Nat) : ZMod P.p) := by rw [h5]; simp
            rw [ZMod.natCast_eq_natCast_iff] at h6
            have h7 := (q4 t List.mem_cons_self).2.2.2.2.1
            rw [Nat.ModEq, Nat.mod_eq_of_lt h7, Nat.mod_eq_of_lt hP.prime.one_lt] at h6
            exact h6
          exact ⟨q', by rw [← ht1, ← ht2]⟩
      have hqrow : PivRow P.p P.ncols k q := PivRow.of_sorted hqk q3 (fun t ht => ⟨(q4 t ht).2.2.1, (q4 t ht).2.2.2.2.1⟩)
      have hsub1 : pivSpan P.p (Function.update pivs' k none) k P.ncols ≤
          allSpan P.p (Function.update pivs' k none) := pivSpan_le_all _ _ _ _
      have hnone : ∀ S : Option Row, allSpan P.p (Function.update pivs' k none) ≤
          allSpan P.p (Function.update pivs' k S) := by
        intro S
        apply allSpan_mono
        intro i x hx
        by_cases hik : i = k
        · subst hik; rw [Function.update_self] at hx; exact absurd hx (by simp)
        · rw [Function.update_of_ne hik] at hx ⊢; exact hx
      have hold : Function.update pivs' k (some r) = pivs' := by rw [← hr]; exact Function.update_eq_self k pivs'
      refine ⟨Function.update pivs' k (some q), ?_, ?_, ?_, ?_, ?_⟩
      · simp only [hhead]; rw [e]; rfl
      · intro c
        by_cases hc : c = k
        · subst hc; rw [Function.update_self, ← h.same, hr]; simp
        · rw [Function.update_of_ne hc]; exact h.same c
      · intro i x hx
        by_cases hik : i = k
        · subst hik; rw [Function.update_self] at hx; rw [← Option.some.inj hx]
          exact ⟨hqrow, q3, fun t ht => (q4 t ht).2.2.2.1⟩
        · rw [Function.update_of_ne hik] at hx; exact h.row i x hx
      · rw [← h.span]
        apply le_antisymm
        · apply Submodule.span_le.mpr
          rintro w ⟨j, x, hx, rfl⟩
          by_cases hik : j = k
          · subst hik; rw [Function.update_self] at hx; rw [← Option.some.inj hx, q1]
            have h8 := hnone (some r) (hsub1 hspan)
            rw [hold] at h8
            have h9 : rvec P.p r ∈ allSpan P.p pivs' := Submodule.subset_span ⟨_, r, hr, rfl⟩
            have := Submodule.add_mem _ h8 h9
            rwa [sub_add_cancel] at this
          · rw [Function.update_of_ne hik] at hx
            exact Submodule.subset_span ⟨j, x, hx, rfl⟩
        · apply Submodule.span_le.mpr
          rintro w ⟨j, x, hx, rfl⟩
          by_cases hik : j = k
          · subst hik; rw [hr] at hx; rw [← Option.some.inj hx]
            have h8 := hnone (some q) (hsub1 hspan)
            have h9 : rvec P.p q ∈ allSpan P.p (Function.update pivs' k (some q)) :=
              Submodule.subset_span ⟨k, q, by rw [Function.update_self], rfl⟩
            rw [q1] at h9
            have := Submodule.sub_mem _ h9 h8
            rwa [sub_sub_cancel] at this
          · exact Submodule.subset_span ⟨j, x, by rw [Function.update_of_ne hik]; exact hx, rfl⟩
      · intro i x hi hx t ht htk
        by_cases hik : i = k
        · subst hik; rw [Function.update_self] at hx
          rw [← Option.some.inj hx] at ht
          exact (by rw [Function.update_of_ne htk]
                    have := (q4 t ht).2.2.2.2.2
                    rwa [Function.update_of_ne htk] at this)
        · rw [Function.update_of_ne hik] at hx
          have h10 := h.red i x (by omega) hx t ht htk
          by_cases htk' : t.1 = k
          · have := (h.row i x hx).1.col_ge t ht
            omega
          · rw [Function.update_of_ne htk']; exact h10

theorem interLoop_ok {P : Par} {Ok : Nat → (Nat → Int) → Prop} (hP : ParOk P Ok)
    {pivs : Nat → Option Row} (hrow : ∀ i r, pivs i = some r → PivRow P.p P.ncols i r ∧ (r.map Prod.fst).Pairwise (· < ·) ∧
      ∀ t ∈ r, 0 < t.2) :
    ∀ m, m ≤ P.ncols - P.ncl → ∃ pivs', interLoop P m pivs = some pivs' ∧ InterOk P pivs m pivs'
  | 0, _ => ⟨pivs, rfl, fun _ => Iff.rfl, hrow, rfl, fun i r hi hir => by
      have := (hrow i r hir).1.lt; omega⟩
  | m + 1, hm => by
    obtain ⟨p1, e1, a1⟩ := interLoop_ok hP hrow m (by omega)
    obtain ⟨p2, e2, a2⟩ := interStep_ok hP (by omega) a1
    exact ⟨p2, by rw [interLoop, e1, Option.bind_some, e2], a2⟩

/-! ### Uniqueness of the result -/

theorem mem_pivSpan_succ {p ncols : Nat} {pivs : Nat → Option Row}
    (hrow : ∀ i r, pivs i = some r → PivRow p ncols i r) {k : Nat} {x : Nat → ZMod p}
    (hx : x ∈ pivSpan p pivs k ncols) (h0 : pivs k ≠ none → x k = 0) : x ∈ pivSpan p pivs (k + 1) ncols := by
  have hvan : ∀ y ∈ pivSpan p pivs (k + 1) ncols, y k = 0 := fun y hy => by
    refine span_vanish ?_ hy
    rintro v ⟨j, r, h1, _, h3, rfl⟩
    exact (hrow j r h3).below (by omega)
  rcases hk : pivs k with _ | r
  · refine Submodule.span_mono ?_ hx
    rintro v ⟨j, r, h1, h2, h3, h4⟩
    refine ⟨j, r, ?_, h2, h3, h4⟩
    rcases Nat.lt_or_eq_of_le h1 with h | h
    · exact h
    · rw [← h, hk] at h3; exact absurd h3 (by simp)
  · have hle : pivSpan p pivs k ncols ≤ Submodule.span (ZMod p) {rvec p r} ⊔ pivSpan p pivs (k + 1) ncols := by
      apply Submodule.span_le.mpr
      rintro v ⟨j, q, h1, h2, h3, rfl⟩
      rcases Nat.lt_or_eq_of_le h1 with h | h
      · exact Submodule.mem_sup_right (Submodule.subset_span ⟨j, q, h, h2, h3, rfl⟩)
      · rw [← h, hk] at h3
        rw [← Option.some.inj h3]
        exact Submodule.mem_sup_left (Submodule.mem_span_singleton_self _)
    obtain ⟨y, hy, z, hz, rfl⟩ := Submodule.mem_sup.mp (hle hx)
    obtain ⟨α, rfl⟩ := Submodule.mem_span_singleton.mp hy
    have h1 := h0 (by rw [hk]; simp)
    rw [Pi.add_apply, hvan z hz, add_zero, Pi.smul_apply, (hrow k r hk).at_head, smul_eq_mul, mul_one] at h1
    rw [h1, zero_smul, zero_add]
    exact hz

theorem allSpan_eq_pivSpan {p ncols : Nat} {pivs : Nat → Option Row}
    (hrow : ∀ i r, pivs i = some r → PivRow p ncols i r) : allSpan p pivs = pivSpan p pivs 0 ncols := by
  apply le_antisymm
  · apply Submodule.span_mono
    rintro v ⟨j, r, h3, h4⟩
    exact ⟨j, r, by omega, (hrow j r h3).lt, h3, h4⟩
  · exact pivSpan_le_all _ _ _ _

/-- A combination of echelon rows vanishing in all pivot columns is zero. -/
theorem eq_zero_of_vanish {p ncols : Nat} {pivs : Nat → Option Row}
    (hrow : ∀ i r, pivs i = some r → PivRow p ncols i r) {x : Nat → ZMod p} (hx : x ∈ allSpan p pivs)
    (h0 : ∀ j, pivs j ≠ none → x j = 0) : x = 0 := by
  rw [allSpan_eq_pivSpan hrow] at hx
  have : ∀ k, k ≤ ncols → x ∈ pivSpan p pivs k ncols := by
    intro k
    induction k with
    | zero => intro _; exact hx
    | succ k ih => intro hk; exact mem_pivSpan_succ hrow (ih (by omega)) (h0 k)
  have h1 := this ncols le_rfl
  have h2 : pivSpan p pivs ncols ncols = ⊥ := by
    unfold pivSpan
    rw [Submodule.span_eq_bot]
    rintro v ⟨j, r, a, b, _⟩
    omega
  rw [h2] at h1
  exact (Submodule.mem_bot _).mp h1

/-- The first nonzero column of a combination of echelon rows is a pivot column. -/
theorem lead_is_pivot {p ncols : Nat} {pivs : Nat → Option Row}
    (hrow : ∀ i r, pivs i = some r → PivRow p ncols i r) {x : Nat → ZMod p} (hx : x ∈ allSpan p pivs)
    {l : Nat} (h0 : ∀ c, c < l → x c = 0) (h1 : x l ≠ 0) : pivs l ≠ none := by
  intro hn
  rw [allSpan_eq_pivSpan hrow] at hx
  have : ∀ k, k ≤ l → x ∈ pivSpan p pivs k ncols := by
    intro k
    induction k with
    | zero => intro _; exact hx
    | succ k ih => intro hk; exact mem_pivSpan_succ hrow (ih (by omega)) (fun _ => h0 k (by omega))
  have h2 := mem_pivSpan_succ hrow (this l le_rfl) (fun h => absurd hn h)
  apply h1
  refine span_vanish ?_ h2
  rintro v ⟨j, r, a, _, h3, rfl⟩
  exact (hrow j r h3).below (by omega)

/-- Sparse rows with increasing columns and coefficients in `(0, p)` are determined by their vectors. -/
theorem row_ext {p : Nat} : ∀ {r r' : Row}, (r.map Prod.fst).Pairwise (· < ·) →
    (r'.map Prod.fst).Pairwise (· < ·) → (∀ t ∈ r, 0 < t.2 ∧ t.2 < p) → (∀ t ∈ r', 0 < t.2 ∧ t.2 < p) →
    rvec p r = rvec p r' → r = r'
  | [], [], _, _, _, _, _ => rfl
  | [], t :: r', _, h2, _, h4, h => by
    exfalso
    rw [List.map_cons, List.pairwise_cons] at h2
    have h5 := congrFun h t.1
    rw [rvec_nil, rvec_cons, Pi.add_apply, Pi.single_eq_same, rvec_zero p r' t.1 (fun u hu => by
      have := h2.1 u.1 (List.mem_map_of_mem hu); omega), add_zero] at h5
    have h6 := (ZMod.natCast_eq_zero_iff t.2 p).mp h5.symm
    have h7 := h4 t List.mem_cons_self
    have := Nat.le_of_dvd h7.1 h6
    omega
  | t :: r, [], h1, _, h3, _, h => by
    exfalso
    rw [List.map_cons, List.pairwise_cons] at h1
    have h5 := congrFun h t.1
    rw [rvec_nil, rvec_cons, Pi.add_apply, Pi.single_eq_same, rvec_zero p r t.1 (fun u hu => by
      have := h1.1 u.1 (List.mem_map_of_mem hu); omega), add_zero] at h5
    have h6 := (ZMod.natCast_eq_zero_iff t.2 p).mp h5
    have h7 := h3 t List.mem_cons_self
    have := Nat.le_of_dvd h7.1 h6
    omega
  | t :: r, t' :: r', h1, h2, h3, h4, h => by
    rw [List.map_cons, List.pairwise_cons] at h1 h2
    have z1 : ∀ c, c ≤ t.1 → rvec p r c = 0 := fun c hc => rvec_zero p r c (fun u hu => by
      have := h1.1 u.1 (List.mem_map_of_mem hu); omega)
    have z2 : ∀ c, c ≤ t'.1 → rvec p r' c = 0 := fun c hc => rvec_zero p r' c (fun u hu => by
      have := h2.1 u.1 (List.mem_map_of_mem hu); omega)
    have n1 : ((t.2 : Nat) : ZMod p) ≠ 0 := fun h5 => by
      have h6 := (ZMod.natCast_eq_zero_iff t.2 p).mp h5
      have h7 := h3 t List.mem_cons_self
      have := Nat.le_of_dvd h7.1 h6
      omega
    have n2 : ((t'.2 : Nat) : ZMod p) ≠ 0 := fun h5 => by
      have h6 := (ZMod.natCast_eq_zero_iff t'.2 p).mp h5
      have h7 := h4 t' List.mem_cons_self
      have := Nat.le_of_dvd h7.1 h6
      omega
    have hc : t.1 = t'.1 := by
      rcases lt_trichotomy t.1 t'.1 with hlt | he | hlt
      · exfalso
        have h5 := congrFun h t.1
        rw [rvec_cons, rvec_cons, Pi.add_apply, Pi.add_apply, Pi.single_eq_same, z1 _ le_rfl,
          z2 _ hlt.le, Pi.single_eq_of_ne hlt.ne, add_zero, add_zero] at h5
        exact n1 h5
      · exact he
      · exfalso
        have h5 := congrFun h t'.1
        rw [rvec_cons, rvec_cons, Pi.add_apply, Pi.add_apply, Pi.single_eq_same, z2 _ le_rfl,
          z1 _ hlt.le, Pi.single_eq_of_ne hlt.ne, add_zero, add_zero] at h5
        exact n2 h5.symm
    have hcf : t.2 = t'.2 := by
      have h5 := congrFun h t.1
      rw [rvec_cons, rvec_cons, Pi.add_apply, Pi.add_apply, z1 _ le_rfl, z2 _ hc.le, ← hc,
        Pi.single_eq_same, Pi.single_eq_same, add_zero, add_zero, ZMod.natCast_eq_natCast_iff,
        Nat.ModEq, Nat.mod_eq_of_lt (h3 t List.mem_cons_self).2,
        Nat.mod_eq_of_lt (h4 t' List.mem_cons_self).2] at h5
      exact h5
    have ht : t = t' := Prod.ext hc hcf
    subst ht
    have hrest : rvec p r = rvec p r' := by
      rw [rvec_cons, rvec_cons] at h
      exact add_left_cancel h
    rw [row_ext h1.2 h2.2 (fun u hu => h3 u (List.mem_cons_of_mem _ hu))
      (fun u hu => h4 u (List.mem_cons_of_mem _ hu)) hrest]

/-- A reduced row echelon form, stored by pivot column. -/
structure Rref (p ncols : Nat) (R : Nat → Option Row) : Prop where
  row : ∀ i r, R i = some r → PivRow p ncols i r ∧ (r.map Prod.fst).Pairwise (· < ·) ∧ ∀ t ∈ r, 0 < t.2
  red : ∀ i r, R i = some r → ∀ t ∈ r, t.1 ≠ i → R t.1 = none

theorem Rref.at_pivot {p ncols : Nat} {R : Nat → Option Row} (h : Rref p ncols R) {i j : Nat} {r : Row}
    (hi : R i = some r) (hj : R j ≠ none) (hij : j ≠ i) : rvec p r j = 0 := by
  apply rvec_zero
  intro t ht he
  have := h.red i r hi t ht (by rw [he]; exact hij)
  rw [he] at this
  exact hj this

/-- Reduced row echelon forms with the same row space are equal, entry by entry. -/
theorem Rref.unique {p ncols : Nat} (hp : 1 < p) {R R' : Nat → Option Row} (h : Rref p ncols R)
    (h' : Rref p ncols R') (hs : allSpan p R = allSpan p R') : R = R' := by
  have hpf : Fact (1 < p) := ⟨hp⟩
  have key : ∀ {R R' : Nat → Option Row}, Rref p ncols R → Rref p ncols R' → allSpan p R = allSpan p R' →
      ∀ i, R i ≠ none → R' i ≠ none := by
    intro R R' h h' hs i hi
    obtain ⟨r, hr⟩ := Option.ne_none_iff_exists'.mp hi
    have hrow := (h.row i r hr).1
    refine lead_is_pivot (fun i r hr => (h'.row i r hr).1) (x := rvec p r) ?_
      (fun c hc => hrow.below hc) (by rw [hrow.at_head]; exact one_ne_zero)
    rw [← hs]
    exact Submodule.subset_span ⟨i, r, hr, rfl⟩
  funext i
  rcases hi : R i with _ | r
  · rcases hi' : R' i with _ | r'
    · rfl
    · exact absurd hi (key h' h hs.symm i (by rw [hi']; simp))
  · obtain ⟨r', hr'⟩ := Option.ne_none_iff_exists'.mp (key h h' hs i (by rw [hi]; simp))
    rw [hr']
    congr 1
    have hv : rvec p r - rvec p r' = 0 := by
      refine eq_zero_of_vanish (fun i r hr => (h.row i r hr).1) ?_ ?_
      · refine Submodule.sub_mem _ (Submodule.subset_span ⟨i, r, hi, rfl⟩) ?_
        rw [hs]
        exact Submodule.subset_span ⟨i, r', hr', rfl⟩
      · intro j hj
        by_cases hij : j = i
        · subst hij
          rw [Pi.sub_apply, (h.row j r hi).1.at_head, (h'.row j r' hr').1.at_head, sub_self]
        · rw [Pi.sub_apply, h.at_pivot hi hj hij, h'.at_pivot hr' (key h h' hs j hj) hij, sub_self]
    exact row_ext (h.row i r hi).2.1 (h'.row i r' hr').2.1
      (fun t ht => ⟨(h.row i r hi).2.2 t ht, ((h.row i r hi).1.bound t ht).2⟩)
      (fun t ht => ⟨(h'.row i r' hr').2.2 t ht, ((h'.row i r' hr').1.bound t ht).2⟩) (sub_eq_zero.mp hv)

/-- The interreduced new pivots of an array of pivots. -/
theorem interreduce_piv {P : Par} {Ok : Nat → (Nat → Int) → Prop} (hP : ParOk P Ok) {pivs0 : Nat → Option Row}
    (hcl : ∀ c, pivs0 c ≠ none ↔ c < P.ncl)
    {pivs : Nat → Option Row} {T : Submodule (ZMod P.p) (Nat → ZMod P.p)} (h : PivOk P pivs0 pivs T) :
    ∃ R, interreduce P pivs = some R ∧ Rref P.p P.ncols R ∧ allSpan P.p pivs0 ⊔ allSpan P.p R = allSpan P.p pivs ∧
      (∀ x ∈ allSpan P.p R, ∀ c, c < P.ncl → x c = 0) ∧ (∀ i, i < P.ncl → R i = none) := by
  set Q : Nat → Option Row := fun i => if i < P.ncl then none else pivs i with hQ
  have hQs : ∀ i r, Q i = some r → pivs i = some r ∧ P.ncl ≤ i := by
    intro i r hr
    simp only [hQ] at hr
    split_ifs at hr with hi
    exact ⟨hr, by omega⟩
  have h0 : ∀ i, P.ncl ≤ i → pivs0 i = none := by
    intro i hi
    by_contra hne
    have := (hcl i).mp hne
    omega
  have hrow : ∀ i r, Q i = some r → PivRow P.p P.ncols i r ∧ (r.map Prod.fst).Pairwise (· < ·) ∧
      ∀ t ∈ r, 0 < t.2 := by
    intro i r hr
    obtain ⟨h1, h2⟩ := hQs i r hr
    exact ⟨h.row i r h1, (h.fresh i r h1 (h0 i h2)).2.1,
      fun t ht => ((h.fresh i r h1 (h0 i h2)).2.2 t ht).1⟩
  obtain ⟨R, e, a⟩ := interLoop_ok hP hrow (P.ncols - P.ncl) le_rfl
  have hRlow : ∀ i, i < P.ncl → R i = none := fun i hi => by
    rw [a.same]; simp only [hQ]; rw [if_pos hi]
  refine ⟨R, e, ⟨a.row, ?_⟩, ?_, ?_, hRlow⟩
  · intro i r hir t ht hti
    refine a.red i r ?_ hir t ht hti
    have hi : P.ncl ≤ i := by
      by_contra hlt
      rw [hRlow i (by omega)] at hir
      exact absurd hir (by simp)
    have := (a.row i r hir).1.lt
    omega
  · rw [a.span]
    apply le_antisymm
    · exact sup_le (allSpan_mono h.ext) (allSpan_mono fun i r hr => (hQs i r hr).1)
    · apply Submodule.span_le.mpr
      rintro v ⟨j, r, hr, rfl⟩
      by_cases hj : j < P.ncl
      · obtain ⟨q, hq⟩ := Option.ne_none_iff_exists'.mp ((hcl j).mpr hj)
        have := h.ext j q hq
        rw [hr] at this
        rw [Option.some.inj this]
        exact Submodule.mem_sup_left (Submodule.subset_span ⟨j, q, hq, rfl⟩)
      · refine Submodule.mem_sup_right (Submodule.subset_span ⟨j, r, ?_, rfl⟩)
        simp only [hQ]; rw [if_neg hj]; exact hr
  · intro x hx cc hcc
    rw [a.span] at hx
    refine span_vanish ?_ hx
    rintro v ⟨j, r, hr, rfl⟩
    have := (hQs j r hr).2
    exact (hrow j r hr).1.below (by omega)

/-- The interreduced new pivots of a finished parallel phase. -/
theorem interreduce_ok {P : Par} {Ok : Nat → (Nat → Int) → Prop} (hP : ParOk P Ok) {pivs0 : Nat → Option Row}
    (hcl : ∀ c, pivs0 c ≠ none ↔ c < P.ncl)
    {n : Nat} {rows : Fin n → Row} {c : Conf n}
    (h : ConfOk P Ok pivs0 (total P.p pivs0 rows) (fun t => rvec P.p (rows t)) c)
    (hfin : ∀ t, (c.th t).finished = true) :
    ∃ R, interreduce P c.pivs = some R ∧ Rref P.p P.ncols R ∧ allSpan P.p pivs0 ⊔ allSpan P.p R = total P.p pivs0 rows ∧
      (∀ x ∈ allSpan P.p R, ∀ c, c < P.ncl → x c = 0) ∧ (∀ i, i < P.ncl → R i = none) := by
  rw [← final_span h hfin]
  exact interreduce_piv hP hcl h.1

/-- The part of a row space that vanishes in the known pivot columns is determined. -/
theorem span_determined {p ncols : Nat} {pivs0 R R' : Nat → Option Row}
    (hrow : ∀ i r, pivs0 i = some r → PivRow p ncols i r)
    (h : ∀ x ∈ allSpan p R, ∀ c, pivs0 c ≠ none → x c = 0)
    (h' : ∀ x ∈ allSpan p R', ∀ c, pivs0 c ≠ none → x c = 0)
    (hs : allSpan p pivs0 ⊔ allSpan p R = allSpan p pivs0 ⊔ allSpan p R') : allSpan p R ≤ allSpan p R' := by
  intro x hx
  have h1 : x ∈ allSpan p pivs0 ⊔ allSpan p R' := by rw [← hs]; exact Submodule.mem_sup_right hx
  obtain ⟨y, hy, z, hz, rfl⟩ := Submodule.mem_sup.mp h1
  have hy0 : y = 0 := by
    refine eq_zero_of_vanish hrow hy (fun j hj => ?_)
    have := h _ hx j hj
    rwa [Pi.add_apply, h' z hz j hj, add_zero] at this
  rw [hy0, zero_add]
  exact hz

end Verif.Echelon
