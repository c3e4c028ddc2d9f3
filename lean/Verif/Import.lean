import Mathlib.Dynamics.PeriodicPts.Defs
import Mathlib.Tactic.FieldSimp
import Mathlib.Data.Rat.Lemmas
import Verif.Orders

/-! Model of the input validation, import and export, `src/neogb/io.c` and `src/neogb/engine.c`. -/

namespace Verif.Import

open Verif.Orders Finset

/-! ### Exponents -/

/-- Exponents exported for one term, `export_data`, io.c 570-577. -/
def exportEv (evl ebl : Nat) (ev : Nat → Nat) : List Nat :=
  (List.range' 1 (ebl - 1)).map ev ++ (List.range' (ebl + 1) (evl - (ebl + 1))).map ev

/-- Lengths and flat exponent array written by `export_data`, io.c 531-581: `none` stands for a zero
polynomial (`hm[bi] == NULL`), otherwise the exponent vectors of the terms. -/
def exportPolys (evl ebl : Nat) : List (Option (List (Nat → Nat))) → List Nat × List Nat
  | [] => ([], [])
  | none :: ps =>
    let r := exportPolys evl ebl ps
    (1 :: r.1, (List.range' 1 (evl - 1)).map (fun _ => 0) ++ r.2)
  | some ts :: ps =>
    let r := exportPolys evl ebl ps
    (ts.length :: r.1, (ts.map (exportEv evl ebl)).flatten ++ r.2)

theorem exportEv_setEv (nv nev : Nat) (hle : nev ≤ nv) (u buf : Nat → Nat) (hu : ∀ i < nv, u i < 65536) :
    exportEv (evl nv nev) (ebl nev) (setEv nv nev u buf) = (List.range nv).map u := by
  obtain ⟨u1, u2, -, -⟩ := setEv_spec nv nev hle u buf
  unfold exportEv
  have hoff : off nev + nev = ebl nev + 1 := by unfold off ebl; split_ifs <;> omega
  have hevl : nv + off nev = evl nv nev := by unfold off evl ebl; split_ifs <;> omega
  have hebl : ebl nev - 1 = nev := by unfold ebl; split_ifs <;> omega
  have e1 : (List.range' 1 (ebl nev - 1)).map (setEv nv nev u buf) = (List.range nev).map u := by
    rw [hebl, List.range'_eq_map_range, List.map_map]
    apply List.map_congr_left
    intro i hi
    rw [List.mem_range] at hi
    simp only [Function.comp_apply]
    rw [Nat.add_comm, u1 i hi, Nat.mod_eq_of_lt (hu i (by omega))]
  have e2 : (List.range' (ebl nev + 1) (evl nv nev - (ebl nev + 1))).map (setEv nv nev u buf) =
      (List.range' nev (nv - nev)).map u := by
    rw [show evl nv nev - (ebl nev + 1) = nv - nev by omega, List.range'_eq_map_range,
      List.range'_eq_map_range, List.map_map, List.map_map]
    apply List.map_congr_left
    intro i hi
    rw [List.mem_range] at hi
    simp only [Function.comp_apply]
    rw [show ebl nev + 1 + i = (nev + i) + off nev by omega, u2 _ (by omega) (by omega),
      Nat.mod_eq_of_lt (hu _ (by omega))]
  have e3 := List.range'_append_1 (s := 0) (m := nev) (n := nv - nev)
  rw [Nat.zero_add, show nev + (nv - nev) = nv by omega] at e3
  rw [e1, e2, ← List.map_append, List.range_eq_range', List.range_eq_range', e3]

theorem exportEv_congr (nv nev : Nat) (a b : Nat → Nat) (h : ∀ j < evl nv nev, a j = b j)
    (hle : nev ≤ nv) :
    exportEv (evl nv nev) (ebl nev) a = exportEv (evl nv nev) (ebl nev) b := by
  unfold exportEv
  have hb : ebl nev ≤ evl nv nev := by unfold ebl evl; split_ifs <;> omega
  congr 1
  · apply List.map_congr_left
    intro i hi
    rw [List.mem_range'_1] at hi
    exact h i (by omega)
  · apply List.map_congr_left
    intro i hi
    rw [List.mem_range'_1] at hi
    exact h i (by omega)

/-! ### Coefficients -/

/-- Conversion of a number to `int32_t` (two's complement). -/
def toInt32 (x : Int) : Int :=
  let y := x % 2 ^ 32
  if y < 2 ^ 31 then y else y - 2 ^ 32

/-- Coefficient import, io.c 323-327, 341-345, 359-363, with `w` the number of bits of the coefficient
type: `c += (c >> 31) & fc; (cfW_t)(c % fc)`; `c` is an `int32_t`, `fc` a `uint32_t`, so both
operations are done in 32 bit unsigned arithmetic. -/
def importCoeff (w : Nat) (fc : Nat) (c : Int) : Nat :=
  let s : Int := if c < 0 then fc else 0   -- (c >> 31) & fc
  let c' := toInt32 (c + s)
  (((c' % 2 ^ 32).toNat) % fc) % 2 ^ w

/-- `set_ff_bits(st, st->fc)`, io.c 619-637 (and `check_ff_bits` 599-617): the `uint32_t`
characteristic is passed as an `int32_t`. -/
def ffBits (fc : Nat) : Nat :=
  let f := toInt32 fc
  if f = 0 then 0
  else if f < 2 ^ 8 then 8
  else if f < 2 ^ 16 then 16
  else if f < 2 ^ 23 then 32
  else 32

/-- Characteristics accepted by `validate_input_data`, io.c 664-667. -/
def charAccepted (fc : Nat) : Bool := decide (fc ≤ 4294967291)

/-- Rational coefficients, io.c 376-395: `prod_den = Π den_j`, `cf_j = (prod_den / den_j) * num_j`. -/
def importRat (cs : List (Int × Int)) : List Int :=
  let d := cs.foldl (fun p c => p * c.2) 1
  cs.map (fun c => d / c.2 * c.1)

theorem importCoeff_spec (w fc : Nat) (c : Int) (h0 : 0 < fc) (hfc : fc < 2 ^ 31) (hw : fc ≤ 2 ^ w)
    (h1 : -(fc : Int) ≤ c) (h2 : c < 2 ^ 31) : (importCoeff w fc c : Int) = c % fc := by
  have hs : ∃ x : Int, 0 ≤ x ∧ x < 2 ^ 31 ∧ x % fc = c % fc ∧
      toInt32 (c + if c < 0 then (fc : Int) else 0) = x := by
    by_cases hc : c < 0
    · refine ⟨c + fc, by omega, by omega, by rw [Int.add_emod_right], ?_⟩
      rw [if_pos hc]
      unfold toInt32
      simp only
      rw [Int.emod_eq_of_lt (by omega) (by omega), if_pos (by omega)]
    · refine ⟨c, by omega, h2, rfl, ?_⟩
      rw [if_neg hc, add_zero]
      unfold toInt32
      simp only
      rw [Int.emod_eq_of_lt (by omega) (by omega), if_pos (by omega)]
  obtain ⟨x, hx0, hx1, hx2, hx3⟩ := hs
  unfold importCoeff
  simp only
  rw [hx3, Int.emod_eq_of_lt hx0 (by omega)]
  have hlt : x.toNat % fc < 2 ^ w := lt_of_lt_of_le (Nat.mod_lt _ h0) hw
  rw [Nat.mod_eq_of_lt hlt, Int.natCast_mod, Int.toNat_of_nonneg hx0, hx2]

theorem importRat_prod (cs : List (Int × Int)) : ∀ p : Int,
    cs.foldl (fun p c => p * c.2) p = p * (cs.map Prod.snd).prod := by
  induction cs with
  | nil => intro p; simp
  | cons c cs ih => intro p; rw [List.foldl_cons, ih, List.map_cons, List.prod_cons, mul_assoc]

/-! ### Generators -/

/-- A generator is marked invalid if one of its coefficients (numerators or denominators) is the
literal 0, `validate_input_data`, io.c 722-752. -/
def invalid (cfs : List Int) : Bool := cfs.any (fun c => c == 0)

/-- Outcome of `initialize_gba_input_data`. -/
inductive Outcome (α : Type) where
  | stop            -- returns 0: "Bad input data", the caller exits
  | allInvalid      -- returns -1
  | ok (gens : List α) (ngens : Int)   -- imported generators, and the value of `st->ngens = bs->ld`
deriving DecidableEq

/-- `validate_input_data` (io.c 718-764), `check_and_set_meta_data` (io.c 800-812),
`initialize_gba_input_data` (engine.c 51-86) and the selection loop of `import_input_data`
(io.c 291-318): which generators are imported. `nf` is the number of elements to be reduced later. -/
def importGens {α : Type} (bad : α → Bool) (nf : Nat) (gens : List α) : Outcome α :=
  let nrGens : Int := gens.length
  let ctr : Int := (gens.filter bad).length
  let res : Int := if ctr = 0 then 1 else if nrGens - ctr < 1 then -1 else 1
  let nrGens := if ctr = 0 then nrGens else nrGens - ctr
  if nrGens ≤ nf then .stop
  else if res = -1 then .allInvalid
  else
    -- check_and_set_meta_data, with the reduced number of generators
    let ctr2 : Int := ((gens.take nrGens.toNat).filter bad).length
    let ngensInput : Int := nrGens - nf
    let ngens : Int := ngensInput - ctr2
    .ok ((gens.take ngensInput.toNat).filter (fun g => !bad g)) ngens

/-! ### Sorting the terms of a polynomial -/

section Sorting

variable {α : Type}

/-- Inner loop of `sort_terms_ff_*`, io.c 90-95: follow the cycle of the permutation `ph` from `k`.
State: array of terms (coefficient, monomial), permutation, current index. `none` if the loop does not
stop within `fuel` iterations. -/
def cycleLoop (i : Nat) : Nat → (Nat → α) → (Nat → Nat) → Nat →
    Option ((Nat → α) × (Nat → Nat) × Nat)
  | 0, _, _, _ => none
  | fuel + 1, cf, ph, k =>
    let j := ph k
    if i ≠ j then
      cycleLoop i fuel (Function.update cf k (cf j)) (Function.update ph k k) j
    else some (cf, ph, k)

/-- Body of the outer loop, io.c 84-100. -/
def sortStep (len : Nat) (i : Nat) (cf : Nat → α) (ph : Nat → Nat) :
    Option ((Nat → α) × (Nat → Nat)) :=
  if i ≠ ph i then
    (cycleLoop i len cf ph i).map fun r =>
      (Function.update r.1 r.2.2 (cf i), Function.update r.2.1 r.2.2 r.2.2)
  else some (cf, ph)

/-- Outer loop, `sort_terms_ff_8/16/32`, io.c 84-101: iterations `i, .., i+cnt-1`. -/
def sortLoop (len : Nat) : Nat → Nat → (Nat → α) → (Nat → Nat) → Option ((Nat → α) × (Nat → Nat))
  | 0, _, cf, ph => some (cf, ph)
  | cnt + 1, i, cf, ph =>
    match sortStep len i cf ph with
    | none => none
    | some (cf, ph) => sortLoop len cnt (i + 1) cf ph

/-- `sort_terms_ff_*` with the permutation `ph` returned by `sort_r`. -/
def sortTerms (len : Nat) (cf : Nat → α) (ph : Nat → Nat) : Option (Nat → α) :=
  (sortLoop len len 0 cf ph).map Prod.fst

/-- `mpz_swap(x[k], x[j])`. -/
def swap (f : Nat → α) (k j : Nat) : Nat → α :=
  let a := f k
  let b := f j
  Function.update (Function.update f k b) j a

/-- Inner loop of `sort_terms_qq`, io.c 233-238 for the coefficients: values are exchanged. -/
def cycleLoopQ (i : Nat) : Nat → (Nat → α) → (Nat → Nat) → Nat →
    Option ((Nat → α) × (Nat → Nat) × Nat)
  | 0, _, _, _ => none
  | fuel + 1, cf, ph, k =>
    let j := ph k
    if i ≠ j then
      cycleLoopQ i fuel (swap cf k j) (Function.update ph k k) j
    else some (cf, ph, k)

/-- Body of the outer loop of `sort_terms_qq`, io.c 228-242; `tmp` is the scratch variable. -/
def sortStepQ (len : Nat) (i : Nat) (cf : Nat → α) (ph : Nat → Nat) (tmp : α) :
    Option ((Nat → α) × (Nat → Nat) × α) :=
  if i ≠ ph i then
    let t := cf i
    (cycleLoopQ i len (Function.update cf i tmp) ph i).map fun r =>
      (Function.update r.1 r.2.2 t, Function.update r.2.1 r.2.2 r.2.2, r.1 r.2.2)
  else some (cf, ph, tmp)

def sortLoopQ (len : Nat) : Nat → Nat → (Nat → α) → (Nat → Nat) → α → Option (Nat → α)
  | 0, _, cf, _, _ => some cf
  | cnt + 1, i, cf, ph, tmp =>
    match sortStepQ len i cf ph tmp with
    | none => none
    | some (cf, ph, tmp) => sortLoopQ len cnt (i + 1) cf ph tmp

/-- `sort_terms_qq`, io.c 199-249. -/
def sortTermsQ (len : Nat) (cf : Nat → α) (ph : Nat → Nat) (tmp : α) : Option (Nat → α) :=
  sortLoopQ len len 0 cf ph tmp

/-- State of one index while sorting. -/
def Done (cf0 cf : Nat → α) (σ ph : Nat → Nat) (m : Nat) : Prop := ph m = m ∧ cf m = cf0 (σ m)
def Fresh (cf0 cf : Nat → α) (σ ph : Nat → Nat) (m : Nat) : Prop := ph m = σ m ∧ cf m = cf0 m

/-- Following a cycle: `k = σ^s i`, the indices `σ^t i`, `t < s`, are done, everything in `U` (closed
under `σ`) that is not one of them is as before. -/
theorem cycleLoop_spec (len i : Nat) (cf0 : Nat → α) (σ : Nat → Nat) (p : Nat)
    (hp : σ^[p] i = i) (hp0 : 0 < p) (hmin : ∀ t, 0 < t → t < p → σ^[t] i ≠ i)
    (cfS : Nat → α) (phS : Nat → Nat)
    (hU : ∀ t < p, Fresh cf0 cfS σ phS (σ^[t] i)) :
    ∀ (fuel s : Nat) (cf : Nat → α) (ph : Nat → Nat), s < p → p ≤ s + fuel →
      (∀ t < s, Done cf0 cf σ ph (σ^[t] i)) →
      (∀ m, (∀ t < s, m ≠ σ^[t] i) → cf m = cfS m ∧ ph m = phS m) →
      ∃ cf' ph' , cycleLoop i fuel cf ph (σ^[s] i) = some (cf', ph', σ^[p - 1] i) ∧
        (∀ t < p - 1, Done cf0 cf' σ ph' (σ^[t] i)) ∧
        (∀ m, (∀ t < p - 1, m ≠ σ^[t] i) → cf' m = cfS m ∧ ph' m = phS m)
  | 0, s, cf, ph => by intro h1 h2; omega
  | fuel + 1, s, cf, ph => by
    intro h1 h2 hD hF
    have hinj : ∀ t t', t < p → t' < p → t < t' → σ^[t] i ≠ σ^[t'] i := by
      intro t t' ht ht' hlt he
      have h3 : σ^[p - t'] (σ^[t] i) = σ^[p - t'] (σ^[t'] i) := by rw [he]
      rw [← Function.iterate_add_apply, ← Function.iterate_add_apply, show p - t' + t' = p by omega, hp] at h3
      exact hmin (p - t' + t) (by omega) (by omega) h3
    have hne : ∀ t < s, σ^[s] i ≠ σ^[t] i := fun t ht => (hinj t s (by omega) h1 ht).symm
    obtain ⟨c1, c2⟩ := hF (σ^[s] i) hne
    obtain ⟨u1, u2⟩ := hU s h1
    have hnext : ph (σ^[s] i) = σ^[s + 1] i := by
      rw [c2, u1, Function.iterate_succ_apply']
    rw [cycleLoop]
    simp only [hnext]
    by_cases hlast : s + 1 = p
    · rw [if_neg (by rw [hlast, hp]; simp)]
      refine ⟨cf, ph, by rw [show s = p - 1 by omega], ?_, ?_⟩
      · rw [show p - 1 = s by omega]; exact hD
      · rw [show p - 1 = s by omega]; exact hF
    · have hlt : s + 1 < p := by omega
      rw [if_pos (fun h => hmin (s + 1) (by omega) hlt h.symm)]
      refine cycleLoop_spec len i cf0 σ p hp hp0 hmin cfS phS hU fuel (s + 1) _ _ hlt (by omega) ?_ ?_
      · intro t ht
        by_cases hts : t = s
        · subst hts
          refine ⟨by rw [Function.update_self], ?_⟩
          rw [Function.update_self]
          have : cf (σ^[t + 1] i) = cfS (σ^[t + 1] i) :=
            (hF _ (fun t' ht' => (hinj t' (t + 1) (by omega) hlt (by omega)).symm)).1
          rw [this, (hU (t + 1) hlt).2, Function.iterate_succ_apply']
        · have hne' : σ^[t] i ≠ σ^[s] i := (hne t (by omega)).symm
          obtain ⟨d1, d2⟩ := hD t (by omega)
          exact ⟨by rw [Function.update_of_ne hne']; exact d1, by rw [Function.update_of_ne hne']; exact d2⟩
      · intro m hm
        have hms : m ≠ σ^[s] i := hm s (by omega)
        rw [Function.update_of_ne hms, Function.update_of_ne hms]
        exact hF m (fun t ht => hm t (by omega))

/-- Period of an index under a permutation of `0..len-1`. -/
theorem exists_period (len : Nat) (σ : Nat → Nat) (hσ : ∀ m < len, σ m < len)
    (hinj : ∀ a < len, ∀ b < len, σ a = σ b → a = b) (i : Nat) (hi : i < len) :
    ∃ p, 0 < p ∧ p ≤ len ∧ σ^[p] i = i ∧ ∀ t, 0 < t → t < p → σ^[t] i ≠ i := by
  have hlt : ∀ t, σ^[t] i < len := by
    intro t
    induction t with
    | zero => exact hi
    | succ t ih => rw [Function.iterate_succ_apply']; exact hσ _ ih
  have hback : ∀ a t, σ^[a] i = σ^[a + t] i → i = σ^[t] i := by
    intro a
    induction a with
    | zero => intro t h; rw [Nat.zero_add] at h; exact h
    | succ a ih =>
      intro t h
      apply ih t
      rw [Function.iterate_succ_apply', show a + 1 + t = (a + t) + 1 by omega,
        Function.iterate_succ_apply'] at h
      exact hinj _ (hlt a) _ (hlt (a + t)) h
  have hex : ∃ p, 0 < p ∧ σ^[p] i = i := by
    have := Fintype.exists_ne_map_eq_of_card_lt (fun t : Fin (len + 1) => (⟨σ^[t.val] i, hlt _⟩ : Fin len))
      (by simp)
    obtain ⟨x, y, hxy, he⟩ := this
    have he' : σ^[x.val] i = σ^[y.val] i := Fin.mk.inj_iff.mp he
    rcases lt_or_gt_of_ne (fun h => hxy (Fin.ext h) : x.val ≠ y.val) with h | h
    · exact ⟨y.val - x.val, by omega, (hback x.val (y.val - x.val) (by rw [he']; congr 1; omega)).symm⟩
    · exact ⟨x.val - y.val, by omega, (hback y.val (x.val - y.val) (by rw [← he']; congr 1; omega)).symm⟩
  classical
  have hspec := Nat.find_spec hex
  have hmin : ∀ t, 0 < t → t < Nat.find hex → σ^[t] i ≠ i := fun t h0 ht h => Nat.find_min hex ht ⟨h0, h⟩
  refine ⟨Nat.find hex, hspec.1, ?_, hspec.2, hmin⟩
  -- the iterates below the period are distinct
  by_contra hc
  have := Fintype.exists_ne_map_eq_of_card_lt
    (fun t : Fin (Nat.find hex) => (⟨σ^[t.val] i, hlt _⟩ : Fin len)) (by simpa using hc)
  obtain ⟨x, y, hxy, he⟩ := this
  have he' : σ^[x.val] i = σ^[y.val] i := Fin.mk.inj_iff.mp he
  have hx := x.isLt
  have hy := y.isLt
  rcases lt_or_gt_of_ne (fun h => hxy (Fin.ext h) : x.val ≠ y.val) with h | h
  · exact hmin (y.val - x.val) (by omega) (by omega)
      (hback x.val (y.val - x.val) (by rw [he']; congr 1; omega)).symm
  · exact hmin (x.val - y.val) (by omega) (by omega)
      (hback y.val (x.val - y.val) (by rw [← he']; congr 1; omega)).symm

/-- Invariant of the outer loop. -/
structure SInv (len i : Nat) (cf0 cf : Nat → α) (σ ph : Nat → Nat) : Prop where
  st : ∀ m, Done cf0 cf σ ph m ∨ Fresh cf0 cf σ ph m
  low : ∀ m < i, Done cf0 cf σ ph m
  /-- the fresh indices that move are closed under `σ` -/
  closed : ∀ m < len, (ph m = σ m ∧ cf m = cf0 m) → Fresh cf0 cf σ ph (σ m)

theorem sortStep_spec (len i : Nat) (hi : i < len) (cf0 cf : Nat → α) (σ ph : Nat → Nat)
    (hσ : ∀ m < len, σ m < len) (hinj : ∀ a < len, ∀ b < len, σ a = σ b → a = b)
    (I : SInv len i cf0 cf σ ph) :
    ∃ cf' ph', sortStep len i cf ph = some (cf', ph') ∧ SInv len (i + 1) cf0 cf' σ ph' := by
  obtain ⟨p, hp0, hple, hp, hmin⟩ := exists_period len σ hσ hinj i hi
  have hlt : ∀ t, σ^[t] i < len := by
    intro t
    induction t with
    | zero => exact hi
    | succ t ih => rw [Function.iterate_succ_apply']; exact hσ _ ih
  unfold sortStep
  by_cases hfix : i ≠ ph i
  · rw [if_pos hfix]
    have hfr : Fresh cf0 cf σ ph i := by
      rcases I.st i with h | h
      · exact absurd h.1.symm hfix
      · exact h
    have hU : ∀ t < p, Fresh cf0 cf σ ph (σ^[t] i) := by
      intro t _
      induction t with
      | zero => exact hfr
      | succ t ih =>
        rw [Function.iterate_succ_apply']
        exact I.closed _ (hlt t) (ih (by omega))
    obtain ⟨cf', ph', hc, hD, hF⟩ := cycleLoop_spec len i cf0 σ p hp hp0 hmin cf ph hU len 0 cf ph hp0
      (by omega) (fun t ht => by omega) (fun m _ => ⟨rfl, rfl⟩)
    rw [Function.iterate_zero, id] at hc
    rw [hc, Option.map_some]
    set k := σ^[p - 1] i with hk
    have hσk : σ k = i := by
      rw [hk, ← Function.iterate_succ_apply' σ, show (p - 1).succ = p by omega, hp]
    refine ⟨_, _, rfl, ?_⟩
    simp only
    -- orbit membership
    have hdone : ∀ t < p, Done cf0 (Function.update cf' k (cf i)) σ (Function.update ph' k k) (σ^[t] i) := by
      intro t ht
      by_cases htk : σ^[t] i = k
      · rw [htk]
        refine ⟨by rw [Function.update_self], ?_⟩
        rw [Function.update_self, hσk, hfr.2]
      · have ht' : t < p - 1 := by
          by_contra hcn
          apply htk
          rw [hk, show t = p - 1 by omega]
        obtain ⟨d1, d2⟩ := hD t ht'
        exact ⟨by rw [Function.update_of_ne htk]; exact d1, by rw [Function.update_of_ne htk]; exact d2⟩
    have hout : ∀ m, (∀ t < p, m ≠ σ^[t] i) →
        Function.update cf' k (cf i) m = cf m ∧ Function.update ph' k k m = ph m := by
      intro m hm
      have hmk : m ≠ k := hm (p - 1) (by omega)
      rw [Function.update_of_ne hmk, Function.update_of_ne hmk]
      exact hF m (fun t ht => hm t (by omega))
    refine ⟨?_, ?_, ?_⟩
    · intro m
      by_cases hm : ∃ t < p, m = σ^[t] i
      · obtain ⟨t, ht, rfl⟩ := hm
        exact Or.inl (hdone t ht)
      · push Not at hm
        obtain ⟨o1, o2⟩ := hout m hm
        unfold Done Fresh
        rw [o1, o2]
        exact I.st m
    · intro m hm
      by_cases hmo : ∃ t < p, m = σ^[t] i
      · obtain ⟨t, ht, rfl⟩ := hmo
        exact hdone t ht
      · push Not at hmo
        have hmi : m ≠ i := by have := hmo 0 hp0; simpa using this
        obtain ⟨o1, o2⟩ := hout m hmo
        unfold Done
        rw [o1, o2]
        exact I.low m (by omega)
    · intro m hml hm
      by_cases hmo : ∃ t < p, m = σ^[t] i
      · obtain ⟨t, ht, rfl⟩ := hmo
        -- done and fresh at once: fixed point with p = 1, impossible here
        have h1 := (hdone t ht).1
        rw [hm.1] at h1
        exfalso
        have h2 : σ^[p - t] (σ^[t + 1] i) = σ^[p - t] (σ^[t] i) := by
          rw [Function.iterate_succ_apply', h1]
        rw [← Function.iterate_add_apply, ← Function.iterate_add_apply, show p - t + t = p by omega,
          show p - t + (t + 1) = 1 + p by omega, Function.iterate_add_apply, hp] at h2
        apply hfix
        rw [hfr.1]
        exact h2.symm
      · push Not at hmo
        obtain ⟨o1, o2⟩ := hout m hmo
        rw [o1, o2] at hm
        have hfr' := I.closed m hml hm
        have hmo' : ∀ t < p, σ m ≠ σ^[t] i := by
          intro t ht he
          cases t with
          | zero =>
            rw [Function.iterate_zero, id] at he
            have : m = k := hinj m hml k (hlt _) (by rw [he, hσk])
            exact hmo (p - 1) (by omega) this
          | succ t =>
            rw [Function.iterate_succ_apply'] at he
            exact hmo t (by omega) (hinj m hml _ (hlt t) he)
        obtain ⟨q1, q2⟩ := hout (σ m) hmo'
        unfold Fresh
        rw [q1, q2]
        exact hfr'
  · rw [if_neg hfix]
    refine ⟨cf, ph, rfl, I.st, fun m hm => ?_, I.closed⟩
    by_cases hmi : m = i
    · subst hmi
      rw [not_not] at hfix
      rcases I.st m with h | h
      · exact h
      · refine ⟨hfix.symm, ?_⟩
        rw [h.2, ← h.1, ← hfix]
    · exact I.low m (by omega)

theorem sortLoop_spec (len : Nat) (cf0 : Nat → α) (σ : Nat → Nat)
    (hσ : ∀ m < len, σ m < len) (hinj : ∀ a < len, ∀ b < len, σ a = σ b → a = b) :
    ∀ (cnt i : Nat) (cf : Nat → α) (ph : Nat → Nat), i + cnt ≤ len → SInv len i cf0 cf σ ph →
      ∃ cf' ph', sortLoop len cnt i cf ph = some (cf', ph') ∧ SInv len (i + cnt) cf0 cf' σ ph'
  | 0, i, cf, ph, _, I => ⟨cf, ph, rfl, I⟩
  | cnt + 1, i, cf, ph, hle, I => by
    obtain ⟨cf1, ph1, h1, I1⟩ := sortStep_spec len i (by omega) cf0 cf σ ph hσ hinj I
    obtain ⟨cf2, ph2, h2, I2⟩ := sortLoop_spec len cf0 σ hσ hinj cnt (i + 1) cf1 ph1 (by omega) I1
    refine ⟨cf2, ph2, ?_, by rw [show i + (cnt + 1) = i + 1 + cnt by omega]; exact I2⟩
    rw [sortLoop, h1]
    exact h2

/-- In-place application of the permutation. -/
theorem sortTerms_spec (len : Nat) (cf : Nat → α) (σ : Nat → Nat)
    (hσ : ∀ m < len, σ m < len) (hinj : ∀ a < len, ∀ b < len, σ a = σ b → a = b) :
    ∃ cf', sortTerms len cf σ = some cf' ∧ ∀ m < len, cf' m = cf (σ m) := by
  obtain ⟨cf', ph', h, I⟩ := sortLoop_spec len cf σ hσ hinj len 0 cf σ (by omega)
    ⟨fun m => Or.inr ⟨rfl, rfl⟩, fun m hm => by omega, fun m _ _ => ⟨rfl, rfl⟩⟩
  refine ⟨cf', by unfold sortTerms; rw [h]; rfl, fun m hm => (I.low m (by omega)).2⟩

/-- The exchanging variant computes the same array. -/
theorem cycleLoopQ_eq (i : Nat) : ∀ (fuel : Nat) (cf cfQ : Nat → α) (ph : Nat → Nat) (k : Nat),
    (∀ m, m ≠ k → cfQ m = cf m) →
    (cycleLoop i fuel cf ph k = none ∧ cycleLoopQ i fuel cfQ ph k = none) ∨
    ∃ cf' cfQ' ph' k', cycleLoop i fuel cf ph k = some (cf', ph', k') ∧
      cycleLoopQ i fuel cfQ ph k = some (cfQ', ph', k') ∧ ∀ m, m ≠ k' → cfQ' m = cf' m
  | 0, cf, cfQ, ph, k, _ => Or.inl ⟨rfl, rfl⟩
  | fuel + 1, cf, cfQ, ph, k, h => by
    rw [cycleLoop, cycleLoopQ]
    by_cases hj : i ≠ ph k
    · rw [if_pos hj, if_pos hj]
      apply cycleLoopQ_eq i fuel
      intro m hm
      unfold swap
      rw [Function.update_of_ne hm]
      by_cases hmk : m = k
      · subst hmk
        rw [Function.update_self, Function.update_self]
        exact h _ (fun hc => hm hc.symm)
      · rw [Function.update_of_ne hmk, Function.update_of_ne hmk]
        exact h m hmk
    · rw [if_neg hj, if_neg hj]
      exact Or.inr ⟨cf, cfQ, ph, k, rfl, rfl, h⟩

theorem sortLoopQ_eq (len : Nat) : ∀ (cnt i : Nat) (cf : Nat → α) (ph : Nat → Nat) (tmp : α),
    sortLoopQ len cnt i cf ph tmp = (sortLoop len cnt i cf ph).map Prod.fst
  | 0, _, _, _, _ => rfl
  | cnt + 1, i, cf, ph, tmp => by
    rw [sortLoopQ, sortLoop]
    unfold sortStepQ sortStep
    by_cases hfix : i ≠ ph i
    · rw [if_pos hfix, if_pos hfix]
      simp only
      rcases cycleLoopQ_eq i len cf (Function.update cf i tmp) ph i
        (fun m hm => Function.update_of_ne hm _ _) with ⟨h1, h2⟩ | ⟨cf', cfQ', ph', k', h1, h2, h3⟩
      · rw [h1, h2]; rfl
      · rw [h1, h2]
        simp only [Option.map_some]
        rw [sortLoopQ_eq len cnt (i + 1)]
        have : Function.update cfQ' k' (cf i) = Function.update cf' k' (cf i) := by
          funext m
          by_cases hm : m = k'
          · rw [hm, Function.update_self, Function.update_self]
          · rw [Function.update_of_ne hm, Function.update_of_ne hm]; exact h3 m hm
        rw [this]
    · rw [if_neg hfix, if_neg hfix]
      exact sortLoopQ_eq len cnt (i + 1) cf ph tmp

theorem sortTermsQ_eq (len : Nat) (cf : Nat → α) (ph : Nat → Nat) (tmp : α) :
    sortTermsQ len cf ph tmp = sortTerms len cf ph := sortLoopQ_eq len len 0 cf ph tmp

end Sorting

end Verif.Import
