import Mathlib.Data.Finset.Card
import Mathlib.Data.Fintype.Card
import Mathlib.Data.Int.ModEq
import Mathlib.Algebra.Ring.Parity
import Mathlib.Tactic.Ring
import Mathlib.Tactic.Linarith
import Mathlib.Tactic.NormNum
import Mathlib.RingTheory.Coprime.Lemmas
import Verif.DivMask

/-! Model of the monomial hash table, `src/neogb/hash.c`.

Memory is modelled by functions; `esz` is the number of allocated entries and a write at an index
`≥ esz` is the distinct outcome `none`. -/

namespace Verif.Hash

open Verif.DivMask

/-- `ht_t`, data.h: `hmap` maps slots to entries (0 = free), entry `i` has exponent vector `ev i` and
stored hash value `val i`; entries `1 .. eld-1` are in use. The data of an entry not concerned with
identity (`sdm`, `deg`, `idx`) is derived from `ev` and not part of this model. -/
structure HT where
  evl : Nat
  rn : Nat → Nat
  hsz : Nat
  esz : Nat
  eld : Nat
  hmap : Nat → Nat
  ev : Nat → Nat → Nat
  val : Nat → Nat

/-- `for (j = 0; j < evl; ++j) h += ht->rn[j] * a[j];` in 32 bit unsigned arithmetic
(hash.c 834-836, 594-596). -/
def hashLoop (rn a : Nat → Nat) : Nat → Nat → Nat → Nat
  | 0, _, h => h
  | cnt + 1, j, h => hashLoop rn a cnt (j + 1) ((h + rn j * a j % 2 ^ 32) % 2 ^ 32)

def hash (evl : Nat) (rn a : Nat → Nat) : Nat := hashLoop rn a evl 0 0

/-- Result of the probing loop. -/
inductive Probe where
  | found (hm : Nat)
  | free (k : Nat)
  | full (k : Nat)
deriving DecidableEq

/-- The probing loop of `insert_in_hash_table`, hash.c 838-863 (identical text in hash.c 598-624,
657-683, 729-756, 1001-1027, 1175-1201): `cnt` remaining iterations, `i` loop counter, `k` slot. -/
def probe (ht : HT) (a : Nat → Nat) (h : Nat) : Nat → Nat → Nat → Probe
  | 0, _, k => .full k
  | cnt + 1, i, k =>
    let k := (k + i) &&& (ht.hsz - 1)
    let hm := ht.hmap k
    if hm = 0 then .free k
    else if ht.val hm ≠ h then probe ht a h cnt (i + 1) k
    else if pairLoop (fun j => decide (a j = ht.ev hm j)) ht.evl 0 then .found hm
    else probe ht a h cnt (i + 1) k

/-- "add element to hash table", hash.c 865-876 (also 626-637, 765-785).  The write at `ev[eld]`
requires `eld < esz`, the index is a 32 bit number. -/
def add (ht : HT) (a : Nat → Nat) (h k : Nat) : Option (HT × Nat) :=
  if ht.eld < ht.esz ∧ ht.eld < 2 ^ 32 then
    some ({ ht with
      hmap := Function.update ht.hmap k ht.eld
      ev := Function.update ht.ev ht.eld a
      val := Function.update ht.val ht.eld h
      eld := ht.eld + 1 }, ht.eld)
  else none

/-- Insertion with a given hash value: `is_contained_in_hash_table` + `add_to_hash_table`
(hash.c 713-786) and the body of `insert_plcms_in_basis_hash_table` (hash.c 994-1035). If all slots
were probed the code stores the entry at the last probed slot. -/
def insertH (ht : HT) (a : Nat → Nat) (h : Nat) : Option (HT × Nat) :=
  match probe ht a h ht.hsz 0 h with
  | .found hm => some (ht, hm)
  | .free k => add ht a h k
  | .full k => add ht a h k

/-- `insert_in_hash_table`, hash.c 817-877. -/
def insert (ht : HT) (a : Nat → Nat) : Option (HT × Nat) :=
  insertH ht a (hash ht.evl ht.rn a)

/-- Reinsertion of entry `i` in `enlarge_hash_table`, hash.c 366-377. -/
def replaceLoop (hsz : Nat) (e : Nat) : Nat → Nat → Nat → (Nat → Nat) → (Nat → Nat)
  | 0, _, _, hmap => hmap
  | cnt + 1, j, k, hmap =>
    let k := (k + j) &&& (hsz - 1)
    if hmap k ≠ 0 then replaceLoop hsz e cnt (j + 1) k hmap
    else Function.update hmap k e

/-- Loop over the known elements, hash.c 363-378: entries `i, i+1, .., i+cnt-1`. -/
def replaceAll (hsz : Nat) (val : Nat → Nat) : Nat → Nat → (Nat → Nat) → (Nat → Nat)
  | 0, _, hmap => hmap
  | cnt + 1, i, hmap => replaceAll hsz val cnt (i + 1) (replaceLoop hsz i hsz 0 (val i) hmap)

/-- `enlarge_hash_table`, hash.c 317-392.  `none`: the map is freed ("segmentation fault will
follow"). -/
def enlarge (ht : HT) : Option HT :=
  if ht.hsz < 2 ^ 32 then
    some { ht with
      esz := 2 * ht.esz
      hsz := 2 * ht.hsz
      hmap := replaceAll (2 * ht.hsz) ht.val (ht.eld - 1) 1 (fun _ => 0) }
  else if ht.hsz = 2 ^ 32 then some { ht with esz := 2 * ht.esz }
  else none

/-- `initialize_basis_hash_table` (hash.c 45-128, `m = init_hts`) and
`initialize_secondary_hash_table` (hash.c 182-232). -/
def init (evl : Nat) (rn : Nat → Nat) (m : Nat) : HT :=
  { evl, rn, hsz := 2 ^ m, esz := 2 ^ m / 2, eld := 1, hmap := fun _ => 0,
    ev := fun _ _ => 0, val := fun _ => 0 }

/-- `clean_hash_table`, hash.c 922-930. -/
def clean (ht : HT) : HT := { ht with eld := 1, hmap := fun _ => 0, val := fun _ => 0 }

/-- `while (size >= ht->esz) { esz *= 2; hsz *= 2 }` (hash.c 885-889); `fuel` doublings at most. -/
def growLoop (size : Nat) : Nat → Nat → Nat → Nat × Nat
  | 0, esz, hsz => (esz, hsz)
  | f + 1, esz, hsz => if size ≥ esz then growLoop size f (2 * esz) (2 * hsz) else (esz, hsz)

/-- `reinitialize_hash_table`, hash.c 879-920. -/
def reinit (ht : HT) (size : Nat) : HT :=
  let g := growLoop size (size + 1) ht.esz ht.hsz
  { clean ht with esz := g.1, hsz := g.2 }

/-! ### Specification of "same monomial" -/

/-- The vectors agree on their meaningful entries. -/
def Same (evl : Nat) (a b : Nat → Nat) : Prop := ∀ j < evl, a j = b j

/-! ### Probe sequence -/

/-- Slot visited by the `i`-th probe. -/
def tri (hsz h i : Nat) : Nat := (h + i * (i + 1) / 2) % hsz

theorem tri_succ (m h i : Nat) :
    (tri (2 ^ m) h i + (i + 1)) &&& (2 ^ m - 1) = tri (2 ^ m) h (i + 1) := by
  rw [Nat.and_two_pow_sub_one_eq_mod]
  unfold tri
  rw [Nat.mod_add_mod]
  congr 1
  have e : (i + 1) * (i + 1 + 1) = i * (i + 1) + (i + 1) * 2 := by ring
  rw [e, Nat.add_mul_div_right _ _ (by norm_num)]
  omega

theorem tri_zero (m h : Nat) : (h + 0) &&& (2 ^ m - 1) = tri (2 ^ m) h 0 := by
  rw [Nat.and_two_pow_sub_one_eq_mod]; rfl

theorem two_tri (i : Nat) : 2 * (i * (i + 1) / 2) = i * (i + 1) :=
  Nat.mul_div_cancel' (Nat.even_mul_succ_self i).two_dvd

theorem tri_inj_lt (m h i j : Nat) (hij : i < j) (hj : j < 2 ^ m)
    (he : tri (2 ^ m) h i = tri (2 ^ m) h j) : False := by
  unfold tri at he
  have h1 : (h + i * (i + 1) / 2) ≡ (h + j * (j + 1) / 2) [MOD 2 ^ m] := he
  have h2 : i * (i + 1) / 2 ≡ j * (j + 1) / 2 [MOD 2 ^ m] := Nat.ModEq.add_left_cancel' h h1
  have h3 : i * (i + 1) ≡ j * (j + 1) [MOD 2 * 2 ^ m] := by
    rw [← two_tri i, ← two_tri j]
    exact Nat.ModEq.mul_left' 2 h2
  have h4 : ((2 * 2 ^ m : Nat) : Int) ∣ ((j * (j + 1) : Nat) : Int) - ((i * (i + 1) : Nat) : Int) :=
    (Nat.modEq_iff_dvd).mp h3
  have e : ((j * (j + 1) : Nat) : Int) - ((i * (i + 1) : Nat) : Int) = ((j : Int) - i) * (j + i + 1) := by
    push_cast; ring
  rw [e] at h4
  have h5 : ((2 : Int) ^ (m + 1)) ∣ ((j : Int) - i) * (j + i + 1) := by
    have : ((2 * 2 ^ m : Nat) : Int) = (2 : Int) ^ (m + 1) := by push_cast; ring
    rw [← this]; exact h4
  have hpow : ((2 ^ m : Nat) : Int) = (2 : Int) ^ m := by push_cast; rfl
  have hj' : (j : Int) < 2 ^ m := by rw [← hpow]; exact_mod_cast hj
  rcases Int.even_or_odd ((j : Int) - i) with hE | hO
  · -- then j + i + 1 is odd
    have hodd : Odd ((j : Int) + i + 1) := by
      obtain ⟨c, hc⟩ := hE
      exact ⟨c + i, by linarith⟩
    have hcop : IsCoprime ((2 : Int) ^ (m + 1)) ((j : Int) + i + 1) := by
      apply IsCoprime.pow_left
      obtain ⟨c, hc⟩ := hodd
      exact ⟨-c, 1, by rw [hc]; ring⟩
    have := hcop.dvd_of_dvd_mul_right h5
    have hle := Int.le_of_dvd (by omega) this
    rw [pow_succ] at hle
    omega
  · have hcop : IsCoprime ((2 : Int) ^ (m + 1)) ((j : Int) - i) := by
      apply IsCoprime.pow_left
      obtain ⟨c, hc⟩ := hO
      exact ⟨-c, 1, by rw [hc]; ring⟩
    have := hcop.dvd_of_dvd_mul_left h5
    have hle := Int.le_of_dvd (by omega) this
    rw [pow_succ] at hle
    omega

theorem tri_inj (m h i j : Nat) (hi : i < 2 ^ m) (hj : j < 2 ^ m)
    (he : tri (2 ^ m) h i = tri (2 ^ m) h j) : i = j := by
  rcases lt_trichotomy i j with g | g | g
  · exact (tri_inj_lt m h i j g hj he).elim
  · exact g
  · exact (tri_inj_lt m h j i g hi he.symm).elim

/-- The probe sequence visits every slot. -/
theorem tri_surj (m h k : Nat) (hk : k < 2 ^ m) : ∃ i < 2 ^ m, tri (2 ^ m) h i = k := by
  have hpos : 0 < 2 ^ m := Nat.two_pow_pos m
  let f : Fin (2 ^ m) → Fin (2 ^ m) := fun i => ⟨tri (2 ^ m) h i.val, Nat.mod_lt _ hpos⟩
  have hinj : Function.Injective f := by
    intro a b hab
    have : tri (2 ^ m) h a.val = tri (2 ^ m) h b.val := Fin.mk.inj_iff.mp hab
    exact Fin.ext (tri_inj m h _ _ a.isLt b.isLt this)
  obtain ⟨i, hi⟩ := (Finite.injective_iff_surjective.mp hinj) ⟨k, hk⟩
  exact ⟨i.val, i.isLt, Fin.mk.inj_iff.mp hi⟩

/-! ### Invariant -/

/-- Entry `e` with hash `h` is reachable: its slot is visited and all earlier visited slots are taken. -/
def Reach (hmap : Nat → Nat) (hsz h e : Nat) : Prop :=
  ∃ i < hsz, hmap (tri hsz h i) = e ∧ ∀ j < i, hmap (tri hsz h j) ≠ 0

structure Inv (ht : HT) : Prop where
  pow : ∃ m, ht.hsz = 2 ^ m
  evl_pos : 1 ≤ ht.evl
  eld_pos : 1 ≤ ht.eld
  cap : ht.esz ≤ ht.hsz ∨ ht.hsz = 2 ^ 32
  hsz_le : ht.hsz ≤ 2 ^ 32
  eld_le : ht.eld ≤ ht.hsz
  range : ∀ k < ht.hsz, ht.hmap k < ht.eld
  inj : ∀ k < ht.hsz, ∀ l < ht.hsz, ht.hmap k = ht.hmap l → ht.hmap k ≠ 0 → k = l
  reach : ∀ e, 1 ≤ e → e < ht.eld → Reach ht.hmap ht.hsz (ht.val e) e
  val_eq : ∀ e, 1 ≤ e → e < ht.eld → ht.val e = hash ht.evl ht.rn (ht.ev e)
  distinct : ∀ e f, 1 ≤ e → e < ht.eld → 1 ≤ f → f < ht.eld → Same ht.evl (ht.ev e) (ht.ev f) → e = f

theorem hashLoop_congr (rn a b : Nat → Nat) : ∀ (cnt j h : Nat),
    (∀ i, j ≤ i → i < j + cnt → a i = b i) → hashLoop rn a cnt j h = hashLoop rn b cnt j h
  | 0, _, _, _ => rfl
  | cnt + 1, j, h, hab => by
    rw [hashLoop, hashLoop, hab j (le_refl _) (by omega)]
    exact hashLoop_congr rn a b cnt (j + 1) _ (fun i h1 h2 => hab i (by omega) (by omega))

theorem hash_congr (evl : Nat) (rn a b : Nat → Nat) (h : Same evl a b) :
    hash evl rn a = hash evl rn b :=
  hashLoop_congr rn a b evl 0 0 (fun i _ hi => h i (by omega))

/-- A table whose occupied slots hold pairwise distinct entries below `eld ≤ hsz` has a free slot. -/
theorem exists_free (hsz eld : Nat) (hmap : Nat → Nat) (hpos : 1 ≤ eld) (hle : eld ≤ hsz)
    (hr : ∀ k < hsz, hmap k < eld)
    (hinj : ∀ k < hsz, ∀ l < hsz, hmap k = hmap l → hmap k ≠ 0 → k = l) :
    ∃ k < hsz, hmap k = 0 := by
  by_contra hc
  push Not at hc
  let f : Fin hsz → Fin (eld - 1) := fun k =>
    ⟨hmap k.val - 1, by have := hr k.val k.isLt; have := hc k.val k.isLt; omega⟩
  have hf : Function.Injective f := by
    intro a b hab
    have h1 : hmap a.val - 1 = hmap b.val - 1 := Fin.mk.inj_iff.mp hab
    have h2 := hc a.val a.isLt
    have h3 := hc b.val b.isLt
    exact Fin.ext (hinj _ a.isLt _ b.isLt (by omega) h2)
  have := Fintype.card_le_of_injective f hf
  rw [Fintype.card_fin, Fintype.card_fin] at this
  omega

/-- First free slot of a probe sequence. -/
theorem exists_first_free (m h : Nat) (hmap : Nat → Nat) (hfree : ∃ k < 2 ^ m, hmap k = 0) :
    ∃ t < 2 ^ m, hmap (tri (2 ^ m) h t) = 0 ∧ ∀ j < t, hmap (tri (2 ^ m) h j) ≠ 0 := by
  obtain ⟨k, hk, h0⟩ := hfree
  obtain ⟨i, hi, hik⟩ := tri_surj m h k hk
  classical
  have hex : ∃ t, hmap (tri (2 ^ m) h t) = 0 := ⟨i, by rw [hik]; exact h0⟩
  refine ⟨Nat.find hex, lt_of_le_of_lt (Nat.find_min' hex (by rw [hik]; exact h0)) hi,
    Nat.find_spec hex, fun j hj => Nat.find_min hex hj⟩

theorem pairLoop_same (evl : Nat) (h1 : 1 ≤ evl) (a b : Nat → Nat) :
    pairLoop (fun j => decide (a j = b j)) evl 0 = true ↔ Same evl a b := by
  rw [pairLoop_zero _ _ h1]
  simp only [decide_eq_true_eq, Same]

/-- What the probing loop finds, starting at probe `i` (having `cnt` probes left), given the slot `k`
reached before. -/
theorem probe_spec (ht : HT) (m : Nat) (hm : ht.hsz = 2 ^ m) (hevl : 1 ≤ ht.evl)
    (a : Nat → Nat) (h : Nat) : ∀ (cnt i k t : Nat),
    (i = 0 → k = h) → (∀ i', i = i' + 1 → k = tri ht.hsz h i') →
    i ≤ t → t < i + cnt →
    ht.hmap (tri ht.hsz h t) = 0 → (∀ j, i ≤ j → j < t → ht.hmap (tri ht.hsz h j) ≠ 0) →
    (∃ s, i ≤ s ∧ s < t ∧ ht.val (ht.hmap (tri ht.hsz h s)) = h ∧
        Same ht.evl a (ht.ev (ht.hmap (tri ht.hsz h s))) ∧
        probe ht a h cnt i k = .found (ht.hmap (tri ht.hsz h s))) ∨
    ((∀ s, i ≤ s → s < t → ¬ (ht.val (ht.hmap (tri ht.hsz h s)) = h ∧
        Same ht.evl a (ht.ev (ht.hmap (tri ht.hsz h s))))) ∧
      probe ht a h cnt i k = .free (tri ht.hsz h t))
  | 0, i, k, t => by intro _ _ h1 h2; omega
  | cnt + 1, i, k, t => by
    intro hk0 hk1 h1 h2 hz hnz
    have hslot : (k + i) &&& (ht.hsz - 1) = tri ht.hsz h i := by
      rw [hm]
      cases i with
      | zero => rw [hk0 rfl]; exact tri_zero m h
      | succ i' => rw [hk1 i' rfl, hm]; exact tri_succ m h i'
    rw [probe]
    simp only [hslot]
    by_cases hit : i = t
    · subst hit
      right
      rw [if_pos hz]
      exact ⟨fun s hs1 hs2 => by omega, rfl⟩
    · have hlt : i < t := by omega
      have hne := hnz i (le_refl _) hlt
      rw [if_neg hne]
      by_cases hmatch : ht.val (ht.hmap (tri ht.hsz h i)) = h ∧
          Same ht.evl a (ht.ev (ht.hmap (tri ht.hsz h i)))
      · left
        refine ⟨i, le_refl _, hlt, hmatch.1, hmatch.2, ?_⟩
        rw [if_neg (by rw [not_not]; exact hmatch.1), if_pos ((pairLoop_same _ hevl _ _).mpr hmatch.2)]
      · have hcont : (if ht.val (ht.hmap (tri ht.hsz h i)) ≠ h then
            probe ht a h cnt (i + 1) (tri ht.hsz h i)
          else if pairLoop (fun j => decide (a j = ht.ev (ht.hmap (tri ht.hsz h i)) j)) ht.evl 0 = true
          then Probe.found (ht.hmap (tri ht.hsz h i))
          else probe ht a h cnt (i + 1) (tri ht.hsz h i)) = probe ht a h cnt (i + 1) (tri ht.hsz h i) := by
          by_cases hv : ht.val (ht.hmap (tri ht.hsz h i)) ≠ h
          · rw [if_pos hv]
          · rw [if_neg hv, if_neg]
            rw [not_not] at hv
            intro hp
            exact hmatch ⟨hv, (pairLoop_same _ hevl _ _).mp hp⟩
        rw [hcont]
        rcases probe_spec ht m hm hevl a h cnt (i + 1) (tri ht.hsz h i) t (by omega)
          (fun i' hi' => by rw [show i' = i by omega]) (by omega) (by omega) hz
          (fun j hj1 hj2 => hnz j (by omega) hj2) with ⟨s, hs1, hs2, hs3⟩ | ⟨hs, hp⟩
        · exact Or.inl ⟨s, by omega, hs2, hs3⟩
        · refine Or.inr ⟨fun s hs1 hs2 => ?_, hp⟩
          by_cases hsi : s = i
          · rw [hsi]; exact hmatch
          · exact hs s (by omega) hs2

/-- Outcome of probing a table satisfying the invariant with the hash of the vector. -/
theorem probe_inv (ht : HT) (I : Inv ht) (a : Nat → Nat) :
    (∃ e, 1 ≤ e ∧ e < ht.eld ∧ Same ht.evl a (ht.ev e) ∧
      probe ht a (hash ht.evl ht.rn a) ht.hsz 0 (hash ht.evl ht.rn a) = .found e) ∨
    ((∀ e, 1 ≤ e → e < ht.eld → ¬ Same ht.evl a (ht.ev e)) ∧
      ∃ t < ht.hsz, probe ht a (hash ht.evl ht.rn a) ht.hsz 0 (hash ht.evl ht.rn a) =
        .free (tri ht.hsz (hash ht.evl ht.rn a) t) ∧
        ht.hmap (tri ht.hsz (hash ht.evl ht.rn a) t) = 0 ∧
        ∀ j < t, ht.hmap (tri ht.hsz (hash ht.evl ht.rn a) j) ≠ 0) := by
  obtain ⟨m, hm⟩ := I.pow
  have hfree := exists_free ht.hsz ht.eld ht.hmap I.eld_pos I.eld_le I.range I.inj
  set h := hash ht.evl ht.rn a with hh
  rw [hm] at hfree
  obtain ⟨t, ht1, ht2, ht3⟩ := exists_first_free m h ht.hmap hfree
  rw [← hm] at ht1 ht2 ht3
  rcases probe_spec ht m hm I.evl_pos a h ht.hsz 0 h t (fun _ => rfl) (fun i' hi' => by omega)
    (Nat.zero_le _) (by omega) ht2 (fun j _ hj => ht3 j hj) with ⟨s, -, hs, hv, hsame, hp⟩ | ⟨hno, hp⟩
  · left
    have hlt : tri ht.hsz h s < ht.hsz := by
      unfold tri; exact Nat.mod_lt _ (by rw [hm]; exact Nat.two_pow_pos m)
    exact ⟨_, Nat.one_le_iff_ne_zero.mpr (ht3 s hs), I.range _ hlt, hsame, hp⟩
  · right
    refine ⟨fun e he1 he2 hsame => ?_, t, ht1, hp, ht2, ht3⟩
    have hve : ht.val e = h := by
      rw [I.val_eq e he1 he2, hh]; exact (hash_congr _ _ _ _ hsame).symm
    obtain ⟨i, hi, hie, hij⟩ := I.reach e he1 he2
    rw [hve] at hie hij
    have hit : i < t := by
      by_contra hc
      rcases Nat.lt_or_ge t i with g | g
      · exact hij t g ht2
      · have : i = t := by omega
        subst this; omega
    exact hno i (Nat.zero_le _) hit (by rw [hie]; exact ⟨hve, hsame⟩)

/-- Insertion: never fails while there is room, keeps the invariant, all old entries, and returns the
index of an entry with the given vector. -/
theorem insert_spec (ht : HT) (I : Inv ht) (a : Nat → Nat) :
    (∃ e, 1 ≤ e ∧ e < ht.eld ∧ Same ht.evl a (ht.ev e) ∧ insert ht a = some (ht, e)) ∨
    ((∀ e, 1 ≤ e → e < ht.eld → ¬ Same ht.evl a (ht.ev e)) ∧
      ((¬ (ht.eld < ht.esz ∧ ht.eld < 2 ^ 32) ∧ insert ht a = none) ∨
       (ht.eld < ht.esz ∧ ∃ ht', insert ht a = some (ht', ht.eld) ∧ Inv ht' ∧ ht'.eld = ht.eld + 1 ∧
        ht'.evl = ht.evl ∧ ht'.rn = ht.rn ∧ ht'.esz = ht.esz ∧ ht'.hsz = ht.hsz ∧
        ht'.ev = Function.update ht.ev ht.eld a))) := by
  rcases probe_inv ht I a with ⟨e, h1, h2, h3, hp⟩ | ⟨hno, t, ht1, hp, hz, hnz⟩
  · left
    refine ⟨e, h1, h2, h3, ?_⟩
    unfold insert insertH
    rw [hp]
  · right
    refine ⟨hno, ?_⟩
    obtain ⟨m, hm⟩ := I.pow
    set h := hash ht.evl ht.rn a with hh
    have hins : insert ht a = add ht a h (tri ht.hsz h t) := by
      unfold insert insertH
      rw [← hh, hp]
    by_cases hroom : ht.eld < ht.esz ∧ ht.eld < 2 ^ 32
    · right
      refine ⟨hroom.1, ?_⟩
      set k := tri ht.hsz h t with hk
      have hkpos : 0 < ht.hsz := by rw [hm]; exact Nat.two_pow_pos m
      have hklt : k < ht.hsz := by rw [hk]; unfold tri; exact Nat.mod_lt _ hkpos
      refine ⟨{ ht with
        hmap := Function.update ht.hmap k ht.eld
        ev := Function.update ht.ev ht.eld a
        val := Function.update ht.val ht.eld h
        eld := ht.eld + 1 }, by rw [hins]; unfold add; rw [if_pos hroom], ?_, rfl, rfl, rfl, rfl, rfl, rfl⟩
      have hlt_hsz : ht.eld < ht.hsz := by
        rcases I.cap with g | g
        · omega
        · omega
      refine ⟨⟨m, hm⟩, I.evl_pos, by simp only; omega, I.cap, I.hsz_le, by simp only; omega, ?_, ?_, ?_, ?_, ?_⟩
      · intro l hl
        simp only
        by_cases hlk : l = k
        · rw [hlk, Function.update_self]; omega
        · rw [Function.update_of_ne hlk]; have := I.range l hl; omega
      · intro l hl l' hl'
        simp only
        by_cases hlk : l = k
        · by_cases hlk' : l' = k
          · intros; rw [hlk, hlk']
          · rw [hlk, Function.update_self, Function.update_of_ne hlk']
            intro he
            have := I.range l' hl'
            simp only at hl'
            omega
        · by_cases hlk' : l' = k
          · rw [hlk', Function.update_self, Function.update_of_ne hlk]
            intro he
            have := I.range l hl
            omega
          · rw [Function.update_of_ne hlk, Function.update_of_ne hlk']
            exact I.inj l hl l' hl'
      · intro e he1 he2
        simp only at he2 ⊢
        by_cases hee : e = ht.eld
        · subst hee
          rw [Function.update_self]
          refine ⟨t, ht1, by rw [← hk, Function.update_self], fun j hj => ?_⟩
          by_cases hjk : tri ht.hsz h j = k
          · rw [hjk, Function.update_self]; omega
          · rw [Function.update_of_ne hjk]; exact hnz j hj
        · rw [Function.update_of_ne hee]
          obtain ⟨i, hi, hie, hij⟩ := I.reach e he1 (by omega)
          refine ⟨i, hi, ?_, fun j hj => ?_⟩
          · have : tri ht.hsz (ht.val e) i ≠ k := by
              intro hc; rw [hc, hz] at hie; omega
            rw [Function.update_of_ne this]; exact hie
          · by_cases hjk : tri ht.hsz (ht.val e) j = k
            · rw [hjk, Function.update_self]; omega
            · rw [Function.update_of_ne hjk]; exact hij j hj
      · intro e he1 he2
        simp only at he2 ⊢
        by_cases hee : e = ht.eld
        · subst hee; rw [Function.update_self, Function.update_self]
        · rw [Function.update_of_ne hee, Function.update_of_ne hee]; exact I.val_eq e he1 (by omega)
      · intro e f he1 he2 hf1 hf2
        simp only at he2 hf2 ⊢
        by_cases hee : e = ht.eld
        · by_cases hff : f = ht.eld
          · intros; omega
          · rw [hee, Function.update_self, Function.update_of_ne hff]
            intro hs; exact absurd hs (hno f hf1 (by omega))
        · by_cases hff : f = ht.eld
          · rw [hff, Function.update_self, Function.update_of_ne hee]
            intro hs
            exact absurd (fun j hj => (hs j hj).symm) (hno e he1 (by omega))
          · rw [Function.update_of_ne hee, Function.update_of_ne hff]
            exact I.distinct e f he1 (by omega) hf1 (by omega)
    · left
      refine ⟨hroom, ?_⟩
      rw [hins]; unfold add; rw [if_neg hroom]

/-! ### Growing the table -/

theorem replaceLoop_spec (m e h : Nat) (hmap : Nat → Nat) : ∀ (cnt j k t : Nat),
    (j = 0 → k = h) → (∀ i', j = i' + 1 → k = tri (2 ^ m) h i') →
    j ≤ t → t < j + cnt → hmap (tri (2 ^ m) h t) = 0 →
    (∀ i, j ≤ i → i < t → hmap (tri (2 ^ m) h i) ≠ 0) →
    replaceLoop (2 ^ m) e cnt j k hmap = Function.update hmap (tri (2 ^ m) h t) e
  | 0, j, k, t => by intro _ _ h1 h2; omega
  | cnt + 1, j, k, t => by
    intro hk0 hk1 h1 h2 hz hnz
    have hslot : (k + j) &&& (2 ^ m - 1) = tri (2 ^ m) h j := by
      cases j with
      | zero => rw [hk0 rfl]; exact tri_zero m h
      | succ i' => rw [hk1 i' rfl]; exact tri_succ m h i'
    rw [replaceLoop]
    simp only [hslot]
    by_cases hjt : j = t
    · subst hjt
      rw [if_neg (by rw [not_not]; exact hz)]
    · rw [if_pos (hnz j (le_refl _) (by omega))]
      exact replaceLoop_spec m e h hmap cnt (j + 1) _ t (by omega)
        (fun i' hi' => by rw [show i' = j by omega]) (by omega) (by omega) hz
        (fun i hi1 hi2 => hnz i (by omega) hi2)

/-- Partial invariant of the slot map while entries `1 .. e-1` have been reinserted. -/
structure MapInv (hsz e : Nat) (val hmap : Nat → Nat) : Prop where
  range : ∀ k < hsz, hmap k < e
  inj : ∀ k < hsz, ∀ l < hsz, hmap k = hmap l → hmap k ≠ 0 → k = l
  reach : ∀ f, 1 ≤ f → f < e → Reach hmap hsz (val f) f

theorem replaceAll_spec (m : Nat) (val : Nat → Nat) : ∀ (cnt e : Nat) (hmap : Nat → Nat),
    1 ≤ e → e + cnt ≤ 2 ^ m → MapInv (2 ^ m) e val hmap →
    MapInv (2 ^ m) (e + cnt) val (replaceAll (2 ^ m) val cnt e hmap)
  | 0, e, hmap => by intro _ _ h; exact h
  | cnt + 1, e, hmap => by
    intro he hle M
    rw [replaceAll, show e + (cnt + 1) = e + 1 + cnt by omega]
    refine replaceAll_spec m val cnt (e + 1) _ (by omega) (by omega) ?_
    have hfree := exists_free (2 ^ m) e hmap he (by omega) M.range M.inj
    obtain ⟨t, ht1, ht2, ht3⟩ := exists_first_free m (val e) hmap hfree
    rw [replaceLoop_spec m e (val e) hmap (2 ^ m) 0 (val e) t (fun _ => rfl) (by omega) (by omega)
      (by omega) ht2 (fun i _ hi => ht3 i hi)]
    set k := tri (2 ^ m) (val e) t with hk
    refine ⟨?_, ?_, ?_⟩
    · intro l hl
      by_cases hlk : l = k
      · rw [hlk, Function.update_self]; omega
      · rw [Function.update_of_ne hlk]; have := M.range l hl; omega
    · intro l hl l' hl'
      by_cases hlk : l = k
      · by_cases hlk' : l' = k
        · intros; rw [hlk, hlk']
        · rw [hlk, Function.update_self, Function.update_of_ne hlk']
          intro h; have := M.range l' hl'; omega
      · by_cases hlk' : l' = k
        · rw [hlk', Function.update_self, Function.update_of_ne hlk]
          intro h; have := M.range l hl; omega
        · rw [Function.update_of_ne hlk, Function.update_of_ne hlk']
          exact M.inj l hl l' hl'
    · intro f hf1 hf2
      by_cases hfe : f = e
      · subst hfe
        refine ⟨t, ht1, by rw [← hk, Function.update_self], fun j hj => ?_⟩
        by_cases hjk : tri (2 ^ m) (val f) j = k
        · rw [hjk, Function.update_self]; omega
        · rw [Function.update_of_ne hjk]; exact ht3 j hj
      · obtain ⟨i, hi, hie, hij⟩ := M.reach f hf1 (by omega)
        refine ⟨i, hi, ?_, fun j hj => ?_⟩
        · have : tri (2 ^ m) (val f) i ≠ k := by
            intro hc; rw [hc, ht2] at hie; omega
          rw [Function.update_of_ne this]; exact hie
        · by_cases hjk : tri (2 ^ m) (val f) j = k
          · rw [hjk, Function.update_self]; omega
          · rw [Function.update_of_ne hjk]; exact hij j hj

theorem enlarge_spec (ht : HT) (I : Inv ht) :
    ∃ ht', enlarge ht = some ht' ∧ Inv ht' ∧ ht'.eld = ht.eld ∧ ht'.ev = ht.ev ∧ ht'.evl = ht.evl ∧
      ht'.rn = ht.rn ∧ ht'.esz = 2 * ht.esz := by
  obtain ⟨m, hm⟩ := I.pow
  have hle := I.hsz_le
  unfold enlarge
  by_cases h1 : ht.hsz < 2 ^ 32
  · rw [if_pos h1]
    refine ⟨_, rfl, ?_, rfl, rfl, rfl, rfl, rfl⟩
    have hm2 : 2 * ht.hsz = 2 ^ (m + 1) := by rw [hm, pow_succ]; ring
    have hcap : ht.esz ≤ ht.hsz := by
      rcases I.cap with g | g
      · exact g
      · omega
    have hmle : 2 ^ (m + 1) ≤ 2 ^ 32 := by
      apply Nat.pow_le_pow_right (by norm_num)
      rw [hm] at h1
      have := (Nat.pow_lt_pow_iff_right (by norm_num : 1 < 2)).mp h1
      omega
    have he := I.eld_pos
    have hl := I.eld_le
    have M : MapInv (2 ^ (m + 1)) (1 + (ht.eld - 1)) ht.val
        (replaceAll (2 ^ (m + 1)) ht.val (ht.eld - 1) 1 (fun _ => 0)) := by
      apply replaceAll_spec (m + 1) ht.val (ht.eld - 1) 1 (fun _ => 0) (le_refl _)
      · rw [← hm2]; omega
      · exact ⟨fun _ _ => Nat.one_pos, fun _ _ _ _ _ h => absurd rfl h, fun f h1 h2 => by omega⟩
    rw [show 1 + (ht.eld - 1) = ht.eld by omega] at M
    refine ⟨⟨m + 1, hm2⟩, I.evl_pos, he, Or.inl (by simp only; omega), ?_, ?_, ?_, ?_, ?_, I.val_eq, I.distinct⟩
    · simp only; rw [hm2]; exact hmle
    · simp only; omega
    · simp only; rw [hm2]; exact M.range
    · simp only; rw [hm2]; exact M.inj
    · simp only; rw [hm2]; exact M.reach
  · rw [if_neg h1]
    have h2 : ht.hsz = 2 ^ 32 := by omega
    rw [if_pos h2]
    exact ⟨_, rfl, ⟨I.pow, I.evl_pos, I.eld_pos, Or.inr h2, I.hsz_le, I.eld_le, I.range, I.inj, I.reach,
      I.val_eq, I.distinct⟩, rfl, rfl, rfl, rfl, rfl⟩

theorem init_inv (evl : Nat) (rn : Nat → Nat) (m : Nat) (h1 : 1 ≤ evl) (hm : m ≤ 32) :
    Inv (init evl rn m) := by
  have hp := Nat.two_pow_pos m
  refine ⟨⟨m, rfl⟩, h1, le_refl _, Or.inl ?_, Nat.pow_le_pow_right (by norm_num) hm, hp, ?_, ?_, ?_, ?_, ?_⟩
  · simp only [init]; omega
  · intro k _; simp [init]
  · intro k _ l _ _ h; simp [init] at h
  · intro e he1 he2; simp only [init] at he2; omega
  · intro e he1 he2; simp only [init] at he2; omega
  · intro e f he1 he2; simp only [init] at he2; omega

theorem clean_inv (ht : HT) (I : Inv ht) : Inv (clean ht) := by
  obtain ⟨m, hm⟩ := I.pow
  refine ⟨⟨m, hm⟩, I.evl_pos, le_refl _, I.cap, I.hsz_le, ?_, ?_, ?_, ?_, ?_, ?_⟩
  · simp only [clean]; rw [hm]; exact Nat.two_pow_pos m
  · intro k _; simp [clean]
  · intro k _ l _ _ h; simp [clean] at h
  · intro e he1 he2; simp only [clean] at he2; omega
  · intro e he1 he2; simp only [clean] at he2; omega
  · intro e f he1 he2; simp only [clean] at he2; omega

/-! ### Histories -/

/-- Operations of a history between two clean-ups. -/
inductive Op where
  | insert (a : Nat → Nat)
  | enlarge

/-- Run a history; the result lists the inserted vectors with the returned indices, in order. `none` if
some operation wrote out of bounds. -/
def run (ht : HT) : List Op → Option (HT × List ((Nat → Nat) × Nat))
  | [] => some (ht, [])
  | .insert a :: ops =>
    match insert ht a with
    | none => none
    | some (ht', i) =>
      match run ht' ops with
      | none => none
      | some (ht'', l) => some (ht'', (a, i) :: l)
  | .enlarge :: ops =>
    match enlarge ht with
    | none => none
    | some ht' => run ht' ops

theorem run_spec (ops : List Op) : ∀ (ht : HT), Inv ht → ∀ ht' l, run ht ops = some (ht', l) →
    Inv ht' ∧ ht.eld ≤ ht'.eld ∧ ht'.evl = ht.evl ∧ ht'.rn = ht.rn ∧
      (∀ e, e < ht.eld → ht'.ev e = ht.ev e) ∧
      ∀ p ∈ l, 1 ≤ p.2 ∧ p.2 < ht'.eld ∧ Same ht.evl p.1 (ht'.ev p.2) := by
  induction ops with
  | nil =>
    intro ht I ht' l h
    rw [run] at h
    injection h with h
    injection h with h1 h2
    subst h1; subst h2
    exact ⟨I, le_refl _, rfl, rfl, fun _ _ => rfl, by simp⟩
  | cons op ops ih =>
    intro ht I ht' l h
    cases op with
    | insert a =>
      rw [run] at h
      cases hi : insert ht a with
      | none => rw [hi] at h; exact absurd h (by simp)
      | some r =>
        obtain ⟨h1, i⟩ := r
        rw [hi] at h
        simp only at h
        cases hr : run h1 ops with
        | none => rw [hr] at h; exact absurd h (by simp)
        | some r =>
          obtain ⟨h2, l2⟩ := r
          rw [hr] at h
          simp only [Option.some.injEq, Prod.mk.injEq] at h
          obtain ⟨rfl, rfl⟩ := h
          have hstep : Inv h1 ∧ ht.eld ≤ h1.eld ∧ h1.evl = ht.evl ∧ h1.rn = ht.rn ∧
              (∀ e, e < ht.eld → h1.ev e = ht.ev e) ∧ 1 ≤ i ∧ i < h1.eld ∧ Same ht.evl a (h1.ev i) := by
            rcases insert_spec ht I a with ⟨e, he1, he2, hs, hins⟩ | ⟨hno, ⟨-, hins⟩ | ⟨-, ht1, hins, I1, e1, e2, e3, -, -, e4⟩⟩
            · rw [hi] at hins
              simp only [Option.some.injEq, Prod.mk.injEq] at hins
              obtain ⟨rfl, rfl⟩ := hins
              exact ⟨I, le_refl _, rfl, rfl, fun _ _ => rfl, he1, he2, hs⟩
            · rw [hi] at hins; exact absurd hins (by simp)
            · rw [hi] at hins
              simp only [Option.some.injEq, Prod.mk.injEq] at hins
              obtain ⟨rfl, rfl⟩ := hins
              refine ⟨I1, by omega, e2, e3, fun e he => by rw [e4, Function.update_of_ne (by omega)],
                I.eld_pos, by omega, ?_⟩
              rw [e4, Function.update_self]
              exact fun _ _ => rfl
          obtain ⟨I1, s1, s2, s2', s3, s4, s5, s6⟩ := hstep
          obtain ⟨I2, t1, t2, t2', t3, t4⟩ := ih h1 I1 h2 l2 hr
          refine ⟨I2, by omega, by rw [t2, s2], by rw [t2', s2'], fun e he => by rw [t3 e (by omega), s3 e he], ?_⟩
          intro p hp
          rw [List.mem_cons] at hp
          rcases hp with rfl | hp
          · simp only
            refine ⟨s4, by omega, ?_⟩
            rw [t3 i s5]; exact s6
          · have := t4 p hp
            rw [s2] at this
            exact this
    | enlarge =>
      rw [run] at h
      obtain ⟨h1, he, I1, s1, s3, s2, s2', -⟩ := enlarge_spec ht I
      rw [he] at h
      simp only at h
      obtain ⟨I2, t1, t2, t2', t3, t4⟩ := ih h1 I1 ht' l h
      refine ⟨I2, by omega, by rw [t2, s2], by rw [t2', s2'], fun e hlt => by rw [t3 e (by omega), s3], ?_⟩
      intro p hp
      have := t4 p hp
      rw [s2] at this
      exact this

/-! ### Hash of a product -/

theorem hashLoop_eq (rn a : Nat → Nat) : ∀ (cnt j h : Nat), h < 2 ^ 32 →
    hashLoop rn a cnt j h = (h + ((List.range' j cnt).map (fun i => rn i * a i)).sum) % 2 ^ 32
  | 0, j, h, hh => by
    simp only [hashLoop, List.range'_zero, List.map_nil, List.sum_nil, Nat.add_zero]
    exact (Nat.mod_eq_of_lt hh).symm
  | cnt + 1, j, h, hh => by
    rw [hashLoop, hashLoop_eq rn a cnt (j + 1) _ (Nat.mod_lt _ (by norm_num)), List.range'_succ,
      List.map_cons, List.sum_cons]
    generalize ((List.range' (j + 1) cnt).map (fun i => rn i * a i)).sum = s
    generalize rn j * a j = x
    omega

theorem hash_eq (evl : Nat) (rn a : Nat → Nat) :
    hash evl rn a = ((List.range' 0 evl).map (fun i => rn i * a i)).sum % 2 ^ 32 := by
  unfold hash
  rw [hashLoop_eq rn a evl 0 0 (by norm_num), Nat.zero_add]

theorem hash_add (evl : Nat) (rn a b c : Nat → Nat) (h : ∀ j < evl, c j = a j + b j) :
    hash evl rn c = (hash evl rn a + hash evl rn b) % 2 ^ 32 := by
  rw [hash_eq, hash_eq, hash_eq, ← Nat.add_mod]
  congr 1
  have : ∀ l : List Nat, (∀ j ∈ l, j < evl) → (l.map (fun i => rn i * c i)).sum =
      (l.map (fun i => rn i * a i)).sum + (l.map (fun i => rn i * b i)).sum := by
    intro l
    induction l with
    | nil => simp
    | cons x l ih =>
      intro hl
      simp only [List.map_cons, List.sum_cons]
      rw [ih (fun j hj => hl j (List.mem_cons_of_mem _ hj)), h x (hl x List.mem_cons_self)]
      ring
  apply this
  intro j hj
  rw [List.mem_range'_1] at hj
  omega

/-- `check_insert_in_hash_table` (hash.c 788-815, the `PARALLEL_HASHING` variant, run by one thread):
a hash value 0 means "not known". -/
def checkInsert (ht : HT) (a : Nat → Nat) (h : Nat) : Option (HT × Nat) :=
  insertH ht a (if h = 0 then (h + hash ht.evl ht.rn a) % 2 ^ 32 else h)

/-- One term of `insert_multiplied_poly_in_hash_table`, hash.c 1112-1126, with `PARALLEL_HASHING`:
multiplier exponents `ea` with hash `h1`, term `b` of the table `ht1`. -/
def insertMultiplied (ht1 ht2 : HT) (h1 : Nat) (ea : Nat → Nat) (b : Nat) : Option (HT × Nat) :=
  checkInsert ht2 (fun j => (ea j + ht1.ev b j) % 65536) ((h1 + ht1.val b) % 2 ^ 32)

end Verif.Hash
