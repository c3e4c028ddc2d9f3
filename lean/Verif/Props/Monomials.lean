import Verif.DivMask
import Verif.Hash
import Verif.Lcm
import Verif.Import

/-! Properties C10 - C13: divisibility masks, monomial hash table, lcm and coprimality. -/

namespace Verif.Props

open Verif.Orders Verif.DivMask Verif.Hash Verif.Lcm

/-! ### C10 -/

/-- C10: for every mask configuration with at most 32 bits, the divisibility test with stored masks
answers yes exactly if every entry of `b` is at most the corresponding entry of `a`. -/
theorem C10_division_test (p : Params) (hbits : p.ndv * p.bpv ≤ 32) (evl : Nat) (hevl : 1 ≤ evl)
    (hdv : ∀ i < p.ndv, p.dv i < evl) (a b : Nat → Nat) :
    checkDivision evl (mask p a) (mask p b) a b = true ↔ ∀ j < evl, b j ≤ a j := by
  unfold checkDivision
  have hb : mask p b < 2 ^ 32 := lt_of_lt_of_le (mask_lt p b) (Nat.pow_le_pow_right (by norm_num) hbits)
  split_ifs with h
  · simp only [false_iff]
    intro hall
    exact h (and_not_eq_zero _ _ hb (mask_mono p a b (fun i hi => hall _ (hdv i hi))))
  · rw [pairLoop_zero _ _ hevl]
    simp only [Bool.not_eq_true', decide_eq_false_iff_not, not_lt]

/-- C10: on monomials (total degree below 2^16, any block layout) the test decides divisibility, whatever
thresholds `dm` the masks use, with the mask layout chosen at initialisation. -/
theorem C10_divides {n : Nat} (hn : 1 ≤ n) (nev : Nat) (hnev : nev ≤ n) (dm : Nat → Nat)
    (u v : Fin n → ℕ) (bu bv : Nat → Nat) (hu : ∑ i, u i < 65536) (hv : ∑ i, v i < 65536) :
    let p : Params := { ndv := initNdv n, bpv := initBpv n, dv := initDv n nev, dm := dm }
    let a := setEv n nev (ext u) bu
    let b := setEv n nev (ext v) bv
    checkDivision (evl n nev) (mask p a) (mask p b) a b = true ↔ ∀ i, v i ≤ u i := by
  intro p a b
  have hdv : ∀ i < p.ndv, p.dv i < evl n nev := by
    intro i hi
    change i < initNdv n at hi
    change initDv n nev i < evl n nev
    unfold initDv evl
    unfold initNdv at hi ⊢
    split_ifs at hi ⊢ <;> omega
  rw [C10_division_test p (initParams_bits n hn) (evl n nev) (by unfold evl; split_ifs <;> omega) hdv]
  by_cases h0 : nev = 0
  · subst h0
    obtain ⟨u0, u1⟩ := setEv_drl u hu bu
    obtain ⟨v0, v1⟩ := setEv_drl v hv bv
    constructor
    · intro h i
      have := h (i.val + 1) (by have := i.isLt; unfold evl; rw [if_pos rfl]; omega)
      change setEv n 0 (ext v) bv _ ≤ setEv n 0 (ext u) bu _ at this
      rw [u1, v1] at this
      exact this
    · intro h j hj
      change setEv n 0 (ext v) bv j ≤ setEv n 0 (ext u) bu j
      rcases Nat.eq_zero_or_pos j with rfl | hjp
      · rw [u0, v0]; exact Finset.sum_le_sum (fun i _ => h i)
      · have hj' : j - 1 < n := by unfold evl at hj; rw [if_pos rfl] at hj; omega
        have e : j = (⟨j - 1, hj'⟩ : Fin n).val + 1 := by simp only; omega
        rw [e, u1, v1]
        exact h _
  · obtain ⟨u0, u1, u2, u3⟩ := setEv_be nev (by omega) hnev u hu bu
    obtain ⟨v0, v1, v2, v3⟩ := setEv_be nev (by omega) hnev v hv bv
    have hl : evl n nev = n + 2 := by unfold evl; rw [if_neg h0]
    constructor
    · intro h i
      have hi := i.isLt
      rcases Nat.lt_or_ge i.val nev with c | c
      · have := h (i.val + 1) (by omega)
        change setEv n nev (ext v) bv _ ≤ setEv n nev (ext u) bu _ at this
        rw [u2 i c, v2 i c] at this
        exact this
      · have := h (i.val + 2) (by omega)
        change setEv n nev (ext v) bv _ ≤ setEv n nev (ext u) bu _ at this
        rw [u3 i c, v3 i c] at this
        exact this
    · intro h j hj
      change setEv n nev (ext v) bv j ≤ setEv n nev (ext u) bu j
      by_cases c0 : j = 0
      · rw [c0, u0, v0]; exact Finset.sum_le_sum (fun i _ => h i)
      by_cases c1 : j = nev + 1
      · rw [c1, u1, v1]; exact Finset.sum_le_sum (fun i _ => h i)
      rcases Nat.lt_or_ge j (nev + 1) with c | c
      · have e : j = (⟨j - 1, by omega⟩ : Fin n).val + 1 := by simp only; omega
        rw [e, u2 _ (by simp only; omega), v2 _ (by simp only; omega)]
        exact h _
      · have e : j = (⟨j - 2, by omega⟩ : Fin n).val + 2 := by simp only; omega
        rw [e, u3 _ (by simp only; omega), v3 _ (by simp only; omega)]
        exact h _

/-- C10: the search for a divisor among the lead monomials returns the first lead monomial dividing the
given vector, and nothing if there is none. -/
theorem C10_find_divisor (p : Params) (hbits : p.ndv * p.bpv ≤ 32) (evl : Nat)
    (hdv : ∀ i < p.ndv, p.dv i < evl) (a : Nat → Nat) (lms : List (Nat → Nat)) :
    let r := findDivisor evl (mask p a ^^^ (2 ^ 32 - 1)) a (lms.map (fun e => (mask p e, e)))
    (r = none ↔ ∀ e ∈ lms, ¬ ∀ j < evl, e j ≤ a j) ∧
    (∀ i, r = some i → ∃ e, lms[i]? = some e ∧ (∀ j < evl, e j ≤ a j) ∧
      ∀ k < i, ∀ e', lms[k]? = some e' → ¬ ∀ j < evl, e' j ≤ a j) := by
  induction lms with
  | nil => simp [findDivisor]
  | cons e lms ih =>
    simp only [List.map_cons, findDivisor]
    have hb : mask p e < 2 ^ 32 := lt_of_lt_of_le (mask_lt p e) (Nat.pow_le_pow_right (by norm_num) hbits)
    have hmask : (∀ j < evl, e j ≤ a j) → mask p e &&& (mask p a ^^^ (2 ^ 32 - 1)) = 0 := fun hall =>
      and_not_eq_zero _ _ hb (mask_mono p a e (fun i hi => hall _ (hdv i hi)))
    have hall_iff : ((List.range evl).all (fun j => !decide (e j > a j)) = true) ↔ ∀ j < evl, e j ≤ a j := by
      rw [List.all_eq_true]
      simp only [List.mem_range, Bool.not_eq_true', decide_eq_false_iff_not, not_lt, gt_iff_lt]
    set r := findDivisor evl (mask p a ^^^ (2 ^ 32 - 1)) a (lms.map (fun e => (mask p e, e)))
    by_cases hd : ∀ j < evl, e j ≤ a j
    · rw [if_neg (by rw [not_not]; exact hmask hd), if_pos (hall_iff.mpr hd)]
      refine ⟨⟨fun h => by simp at h, fun h => absurd hd (h e List.mem_cons_self)⟩, fun i hi => ?_⟩
      injection hi with hi
      subst hi
      exact ⟨e, rfl, hd, fun k hk => by omega⟩
    · have hcont : (if mask p e &&& (mask p a ^^^ (2 ^ 32 - 1)) ≠ 0 then Option.map (fun x => x + 1) r
          else if (List.range evl).all (fun j => !decide (e j > a j)) = true then some 0
          else Option.map (fun x => x + 1) r) = Option.map (fun x => x + 1) r := by
        split_ifs with h1 h2
        · rfl
        · exact absurd (hall_iff.mp h2) hd
        · rfl
      rw [hcont]
      refine ⟨?_, fun i hi => ?_⟩
      · rw [Option.map_eq_none_iff, ih.1]
        constructor
        · intro h e' he'
          rcases List.mem_cons.mp he' with rfl | he'
          · exact hd
          · exact h e' he'
        · exact fun h e' he' => h e' (List.mem_cons_of_mem _ he')
      · rw [Option.map_eq_some_iff] at hi
        obtain ⟨i', hi', rfl⟩ := hi
        obtain ⟨e', h1, h2, h3⟩ := ih.2 i' hi'
        refine ⟨e', by simpa using h1, h2, fun k hk e'' he'' => ?_⟩
        cases k with
        | zero => simp only [List.getElem?_cons_zero, Option.some.injEq] at he''; rw [← he'']; exact hd
        | succ k => exact h3 k (by omega) e'' (by simpa using he'')

/-- Three variables, ten bits per variable. -/
example : let p : Params := { ndv := initNdv 3, bpv := initBpv 3, dv := initDv 3 1, dm := fun c => c % 10 + 1 }
    p.ndv * p.bpv ≤ 32 ∧ (∀ i < p.ndv, p.dv i < evl 3 1) ∧
    mask p (setEv 3 1 (fun i => i) (fun _ => 7)) = 3 * 2 ^ 20 + 2 ^ 10 := by decide

/-! ### C11 -/

/-- C11: in every history of insertions and table enlargements starting from an empty table of size
2^m, `m ≤ 32`, that does not run out of memory: two insertions return the same index exactly if they
inserted the same vector, and at the end each returned index denotes the inserted vector. -/
theorem C11_hash_consing (evl : Nat) (hevl : 1 ≤ evl) (rn : Nat → Nat) (m : Nat) (hm : m ≤ 32)
    (ops : List Op) (ht : HT) (l : List ((Nat → Nat) × Nat))
    (h : run (init evl rn m) ops = some (ht, l)) :
    (∀ p ∈ l, ∀ q ∈ l, (p.2 = q.2 ↔ Same evl p.1 q.1)) ∧
    (∀ p ∈ l, Same evl (ht.ev p.2) p.1) := by
  obtain ⟨I, -, he, -, -, hl⟩ := run_spec ops (init evl rn m) (init_inv evl rn m hevl hm) ht l h
  have he' : ht.evl = evl := he
  refine ⟨fun p hp q hq => ?_, fun p hp => fun j hj => ((hl p hp).2.2 j hj).symm⟩
  obtain ⟨p1, p2, p3⟩ := hl p hp
  obtain ⟨q1, q2, q3⟩ := hl q hq
  have p3' : Same evl p.1 (ht.ev p.2) := p3
  have q3' : Same evl q.1 (ht.ev q.2) := q3
  constructor
  · intro hpq j hj
    rw [p3' j hj, q3' j hj, hpq]
  · intro hs
    apply I.distinct _ _ p1 p2 q1 q2
    rw [he']
    intro j hj
    rw [← p3' j hj, ← q3' j hj, hs j hj]

/-- C11: an index returned in a history keeps denoting the same vector during any continuation. -/
theorem C11_index_stable (evl : Nat) (hevl : 1 ≤ evl) (rn : Nat → Nat) (m : Nat) (hm : m ≤ 32)
    (ops ops' : List Op) (ht ht' : HT) (l l' : List ((Nat → Nat) × Nat))
    (h : run (init evl rn m) ops = some (ht, l)) (h' : run ht ops' = some (ht', l')) :
    ∀ p ∈ l, ht'.ev p.2 = ht.ev p.2 := by
  obtain ⟨I, -, -, -, -, hl⟩ := run_spec ops (init evl rn m) (init_inv evl rn m hevl hm) ht l h
  obtain ⟨-, -, -, -, h2, -⟩ := run_spec ops' ht I ht' l' h'
  exact fun p hp => h2 _ (hl p hp).2.1

/-- C11: an insertion never fails and probing never runs over all slots without an answer as long as
there is an allocated entry left and indices fit in 32 bits: in any reachable table. -/
theorem C11_insert_progress (evl : Nat) (hevl : 1 ≤ evl) (rn : Nat → Nat) (m : Nat) (hm : m ≤ 32)
    (ops : List Op) (ht : HT) (l : List ((Nat → Nat) × Nat))
    (h : run (init evl rn m) ops = some (ht, l)) (a : Nat → Nat) :
    (ht.eld < ht.esz → ht.eld < 2 ^ 32 → ∃ r, insert ht a = some r) ∧
    (∀ k, probe ht a (hash ht.evl ht.rn a) ht.hsz 0 (hash ht.evl ht.rn a) ≠ .full k) := by
  obtain ⟨I, -, -, -, -, -⟩ := run_spec ops (init evl rn m) (init_inv evl rn m hevl hm) ht l h
  constructor
  · intro h1 h2
    rcases insert_spec ht I a with ⟨e, -, -, -, hi⟩ | ⟨-, ⟨hn, -⟩ | ⟨-, ht', hi, -⟩⟩
    · exact ⟨_, hi⟩
    · exact absurd ⟨h1, h2⟩ hn
    · exact ⟨_, hi⟩
  · intro k
    rcases probe_inv ht I a with ⟨e, -, -, -, hp⟩ | ⟨-, t, -, hp, -⟩ <;> rw [hp] <;> simp

/-- C11: enlarging never fails in a reachable table and doubles the number of allocated entries. -/
theorem C11_enlarge_progress (evl : Nat) (hevl : 1 ≤ evl) (rn : Nat → Nat) (m : Nat) (hm : m ≤ 32)
    (ops : List Op) (ht : HT) (l : List ((Nat → Nat) × Nat))
    (h : run (init evl rn m) ops = some (ht, l)) :
    ∃ ht', enlarge ht = some ht' ∧ ht'.esz = 2 * ht.esz ∧ ht'.eld = ht.eld := by
  obtain ⟨I, -, -, -, -, -⟩ := run_spec ops (init evl rn m) (init_inv evl rn m hevl hm) ht l h
  obtain ⟨ht', h1, -, h2, -, -, -, h3⟩ := enlarge_spec ht I
  exact ⟨ht', h1, h3, h2⟩

/-- A history with a full hash collision (all random values zero), an enlargement and a repetition. -/
example : (run (init 2 (fun _ => 0) 2)
    [.insert (fun j => j), .enlarge, .insert (fun _ => 3), .insert (fun j => j)]).map
      (fun r => (r.2.map Prod.snd, r.1.eld)) = some ([1, 2, 1], 3) := by decide +kernel

/-! ### C12 -/

/-- C12: as long as no exponent sum exceeds 16 bits, inserting a product with the sum of the hash values
of its factors is the same as inserting the product vector. The factors' stored hash value is the hash
of their vector in any reachable table (`ht1` and `ht2` share the random values). -/
theorem C12_product_insertion (evl : Nat) (hevl : 1 ≤ evl) (rn : Nat → Nat) (m : Nat) (hm : m ≤ 32)
    (ops : List Op) (ht1 ht2 : HT) (l : List ((Nat → Nat) × Nat))
    (h : run (init evl rn m) ops = some (ht1, l)) (h2 : ht2.evl = evl) (h3 : ht2.rn = rn)
    (ea : Nat → Nat) (b : Nat) (hb : 1 ≤ b ∧ b < ht1.eld)
    (hsum : ∀ j < evl, ea j + ht1.ev b j < 65536) :
    insertMultiplied ht1 ht2 (hash evl rn ea) ea b =
      Hash.insert ht2 (fun j => (ea j + ht1.ev b j) % 65536) := by
  obtain ⟨I, -, he, hr, -, -⟩ := run_spec ops (init evl rn m) (init_inv evl rn m hevl hm) ht1 l h
  have he' : ht1.evl = evl := he
  have hr' : ht1.rn = rn := hr
  have hv := I.val_eq b hb.1 hb.2
  rw [he', hr'] at hv
  have hh := hash_add evl rn ea (ht1.ev b) (fun j => (ea j + ht1.ev b j) % 65536)
    (fun j hj => Nat.mod_eq_of_lt (hsum j hj))
  unfold insertMultiplied checkInsert Hash.insert
  rw [hv, ← hh, h2, h3]
  split_ifs with h0
  · rw [h0, Nat.zero_add, Nat.zero_mod]
  · rfl

/-- C12: an insertion with the hash value stored for the same vector in another table (used for critical
pairs) is the plain insertion. -/
theorem C12_stored_hash (evl : Nat) (hevl : 1 ≤ evl) (rn : Nat → Nat) (m : Nat) (hm : m ≤ 32)
    (ops : List Op) (ht1 ht2 : HT) (l : List ((Nat → Nat) × Nat))
    (h : run (init evl rn m) ops = some (ht1, l)) (h2 : ht2.evl = evl) (h3 : ht2.rn = rn)
    (b : Nat) (hb : 1 ≤ b ∧ b < ht1.eld) :
    insertH ht2 (ht1.ev b) (ht1.val b) = Hash.insert ht2 (ht1.ev b) := by
  obtain ⟨I, -, he, hr, -, -⟩ := run_spec ops (init evl rn m) (init_inv evl rn m hevl hm) ht1 l h
  have hv := I.val_eq b hb.1 hb.2
  rw [show ht1.evl = evl from he, show ht1.rn = rn from hr] at hv
  unfold Hash.insert
  rw [h2, h3, hv]

/-- C12: without the bound the property is false: if an exponent sum wraps around, the sum of the
hashes is not the hash of the product (for every odd random value, as the code uses). -/
theorem C12_overflow_breaks_hash (r : Nat) (hr : r % 2 = 1) :
    ∃ a b : Nat → Nat, (∀ j, a j < 65536) ∧ (∀ j, b j < 65536) ∧
      hash 1 (fun _ => r) (fun j => (a j + b j) % 65536) ≠
        (hash 1 (fun _ => r) a + hash 1 (fun _ => r) b) % 2 ^ 32 := by
  refine ⟨fun _ => 65535, fun _ => 1, fun _ => by norm_num, fun _ => by norm_num, ?_⟩
  rw [hash_eq, hash_eq, hash_eq]
  simp only [List.range'_one, List.map_cons, List.map_nil, List.sum_cons, List.sum_nil, add_zero]
  omega

example : (run (init 2 (fun j => 2 * j + 1) 3) [.insert (fun j => j + 1)]).map
    (fun r => (r.1.eld, decide (∀ j < 2, 5 + r.1.ev 1 j < 65536))) = some (2, true) := by decide +kernel

/-! ### C13 -/

/-- C13: the vector built for the lcm of two monomials is, in every meaningful entry (both degree
entries included), the one that import would write for the componentwise maximum. -/
theorem C13_lcm (nv nev : Nat) (hle : nev ≤ nv) (u v bu bv old b : Nat → Nat)
    (hu : ∀ i < nv, u i < 65536) (hv : ∀ i < nv, v i < 65536) :
    ∀ j < evl nv nev, lcmVec (evl nv nev) (ebl nev) (setEv nv nev u bu) (setEv nv nev v bv) old j =
      setEv nv nev (fun i => max (u i) (v i)) b j :=
  lcmVec_spec nv nev hle u v bu bv old b hu hv

/-- C13: the exported exponents of that vector form the least common multiple: they divide `w` exactly
if both monomials divide `w`. -/
theorem C13_lcm_least (nv nev : Nat) (hle : nev ≤ nv) (u v bu bv old w : Nat → Nat)
    (hu : ∀ i < nv, u i < 65536) (hv : ∀ i < nv, v i < 65536) :
    let m := Verif.Import.exportEv (evl nv nev) (ebl nev)
      (lcmVec (evl nv nev) (ebl nev) (setEv nv nev u bu) (setEv nv nev v bv) old)
    m.length = nv ∧ ((∀ i < nv, u i ≤ w i) ∧ (∀ i < nv, v i ≤ w i) ↔ ∀ i < nv, m.getD i 0 ≤ w i) := by
  intro m
  have hm : m = (List.range nv).map (fun i => max (u i) (v i)) := by
    rw [← Verif.Import.exportEv_setEv nv nev hle (fun i => max (u i) (v i)) bu
      (fun i hi => max_lt (hu i hi) (hv i hi))]
    exact Verif.Import.exportEv_congr nv nev _ _ (lcmVec_spec nv nev hle u v bu bv old bu hu hv) hle
  rw [hm]
  refine ⟨by simp, ?_⟩
  have hg : ∀ i < nv, ((List.range nv).map (fun i => max (u i) (v i))).getD i 0 = max (u i) (v i) := by
    intro i hi
    simp [List.getD, hi]
  constructor
  · exact fun h i hi => by rw [hg i hi]; exact max_le (h.1 i hi) (h.2 i hi)
  · intro h
    exact ⟨fun i hi => (le_max_left _ _).trans (by rw [← hg i hi]; exact h i hi),
      fun i hi => (le_max_right _ _).trans (by rw [← hg i hi]; exact h i hi)⟩

/-- C13: the coprimality test answers yes exactly if no variable occurs in both monomials. -/
theorem C13_coprime (nv nev : Nat) (hle : nev ≤ nv) (u v bu bv : Nat → Nat)
    (hu : ∀ i < nv, u i < 65536) (hv : ∀ i < nv, v i < 65536) :
    primeMonomials (evl nv nev) (ebl nev) (setEv nv nev u bu) (setEv nv nev v bv) = true ↔
      ∀ i < nv, min (u i) (v i) = 0 := by
  rw [primeMonomials_spec nv nev hle u v bu bv hu hv]
  constructor
  · intro h i hi; have := h i hi; omega
  · intro h i hi; have := h i hi; omega

example : primeMonomials (evl 3 1) (ebl 1) (setEv 3 1 (fun i => i) id) (setEv 3 1 (fun i => 1 - i) id) = true ∧
    primeMonomials (evl 3 1) (ebl 1) (setEv 3 1 (fun i => i) id) (setEv 3 1 (fun _ => 1) id) = false ∧
    (List.range 5).map (lcmVec (evl 3 1) (ebl 1) (setEv 3 1 (fun i => i) id) (setEv 3 1 (fun i => 2 - i) id) id) =
      [2, 2, 3, 1, 2] := by decide

end Verif.Props
