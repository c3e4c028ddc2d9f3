import Verif.Orders

/-! Model of `get_lcm` and `prime_monomials`, `src/neogb/hash.c`. -/

namespace Verif.Lcm

open Verif.Orders Finset

/-- `for (i = lo; i < lo + cnt; ++i) etmp[d] += etmp[i];` in 16 bit arithmetic. -/
def accum (d : Nat) (e : Nat → Nat) (lo cnt : Nat) : Nat → Nat :=
  (List.range' lo cnt).foldl (fun e i => Function.update e d ((e d + e i) % 65536)) e

/-- The exponent vector built by `get_lcm`, hash.c 1311-1334 (`old` is the uninitialised buffer). -/
def lcmVec (evl ebl : Nat) (ea eb old : Nat → Nat) : Nat → Nat :=
  let e := fun i => if 1 ≤ i ∧ i < evl then (if ea i < eb i then eb i else ea i) else old i
  let e := Function.update (Function.update e 0 0) ebl 0
  let e := accum 0 e 1 (ebl - 1)
  accum ebl e (ebl + 1) (evl - (ebl + 1))

/-- The loop `for (i = lo; i < lo+cnt; ++i) if (ea[i] != 0 && eb[i] != 0) return 0;` -/
def noCommon (ea eb : Nat → Nat) (lo cnt : Nat) : Bool :=
  (List.range' lo cnt).all (fun i => !(decide (ea i ≠ 0) && decide (eb i ≠ 0)))

/-- `prime_monomials`, hash.c 932-957. -/
def primeMonomials (evl ebl : Nat) (ea eb : Nat → Nat) : Bool :=
  noCommon ea eb 1 (ebl - 1) && noCommon ea eb (ebl + 1) (evl - (ebl + 1))

theorem accum_spec (d : Nat) : ∀ (cnt lo : Nat) (e : Nat → Nat), (d < lo ∨ lo + cnt ≤ d) →
    e d < 65536 →
    accum d e lo cnt = Function.update e d ((e d + ∑ i ∈ Ico lo (lo + cnt), e i) % 65536)
  | 0, lo, e, _, hd => by
    simp only [accum, List.range'_zero, List.foldl_nil, Nat.add_zero, Ico_self, sum_empty]
    rw [Nat.mod_eq_of_lt hd, Function.update_eq_self]
  | cnt + 1, lo, e, hlo, hd => by
    have h := accum_spec d cnt (lo + 1) (Function.update e d ((e d + e lo) % 65536)) (by omega)
      (by rw [Function.update_self]; omega)
    unfold accum at h ⊢
    rw [List.range'_succ, List.foldl_cons, h, Function.update_self, Function.update_idem]
    congr 1
    rw [sum_eq_sum_Ico_succ_bot (by omega : lo < lo + (cnt + 1))]
    have : ∑ i ∈ Ico (lo + 1) (lo + 1 + cnt), Function.update e d ((e d + e lo) % 65536) i =
        ∑ i ∈ Ico (lo + 1) (lo + (cnt + 1)), e i := by
      rw [show lo + 1 + cnt = lo + (cnt + 1) by omega]
      apply sum_congr rfl
      intro i hi
      rw [mem_Ico] at hi
      rw [Function.update_of_ne (by omega)]
    rw [this]
    omega

theorem sum_shift (f g : Nat → Nat) (o lo hi : Nat) (h : ∀ i, lo ≤ i → i < hi → f (i + o) = g i) :
    ∑ i ∈ Ico (lo + o) (hi + o), f i = ∑ i ∈ Ico lo hi, g i := by
  rw [← sum_Ico_add' f lo hi o]
  exact sum_congr rfl (fun i hi' => by rw [mem_Ico] at hi'; exact h i hi'.1 hi'.2)

/-- The vector built by `get_lcm` is the one import writes for the least common multiple. -/
theorem lcmVec_spec (nv nev : Nat) (hle : nev ≤ nv) (u v bu bv old b : Nat → Nat)
    (hu : ∀ i < nv, u i < 65536) (hv : ∀ i < nv, v i < 65536) :
    ∀ j < evl nv nev, lcmVec (evl nv nev) (ebl nev) (setEv nv nev u bu) (setEv nv nev v bv) old j =
      setEv nv nev (fun i => max (u i) (v i)) b j := by
  obtain ⟨u1, u2, u3, u4⟩ := setEv_spec nv nev hle u bu
  obtain ⟨v1, v2, v3, v4⟩ := setEv_spec nv nev hle v bv
  obtain ⟨w1, w2, w3, w4⟩ := setEv_spec nv nev hle (fun i => max (u i) (v i)) b
  set E : Nat → Nat := fun i => if 1 ≤ i ∧ i < evl nv nev then
    (if setEv nv nev u bu i < setEv nv nev v bv i then setEv nv nev v bv i else setEv nv nev u bu i)
    else old i with hE
  have hmax : ∀ i, i < nv → max (u i) (v i) % 65536 = max (u i) (v i) := fun i hi =>
    Nat.mod_eq_of_lt (max_lt (hu i hi) (hv i hi))
  -- first block
  have e1 : ∀ i, i < nev → E (i + 1) = max (u i) (v i) := by
    intro i hi
    have hp : 1 ≤ i + 1 ∧ i + 1 < evl nv nev := by unfold evl; split_ifs <;> omega
    rw [hE]; simp only
    rw [if_pos hp, u1 i hi, v1 i hi, Nat.mod_eq_of_lt (hu i (by omega)), Nat.mod_eq_of_lt (hv i (by omega))]
    split_ifs <;> omega
  have e2 : ∀ i, nev ≤ i → i < nv → E (i + off nev) = max (u i) (v i) := by
    intro i h1 h2
    have hp : 1 ≤ i + off nev ∧ i + off nev < evl nv nev := by
      unfold evl off ebl; split_ifs <;> omega
    rw [hE]; simp only
    rw [if_pos hp, u2 i h1 h2, v2 i h1 h2, Nat.mod_eq_of_lt (hu i (by omega)), Nat.mod_eq_of_lt (hv i (by omega))]
    split_ifs <;> omega
  have key : lcmVec (evl nv nev) (ebl nev) (setEv nv nev u bu) (setEv nv nev v bv) old =
      accum (ebl nev) (accum 0 (Function.update (Function.update E 0 0) (ebl nev) 0) 1 (ebl nev - 1))
        (ebl nev + 1) (evl nv nev - (ebl nev + 1)) := rfl
  rw [key]
  by_cases h0 : nev = 0
  · subst h0
    have hb : ebl 0 = 0 := rfl
    have ho : off 0 = 1 := rfl
    have hl : evl nv 0 = nv + 1 := rfl
    rw [ho] at e2 w2
    rw [hb] at w3 ⊢
    rw [hl]
    have hacc0 : ∀ e : Nat → Nat, accum 0 e 1 (0 - 1) = e := fun e => rfl
    rw [hacc0, accum_spec 0 _ _ _ (Or.inl (by omega)) (by rw [Function.update_self]; omega)]
    intro j hj
    rcases Nat.eq_zero_or_pos j with rfl | hjp
    · rw [Function.update_self, w3, Function.update_self, Nat.zero_add]
      congr 1
      rw [show 1 + (nv + 1 - (0 + 1)) = nv + 1 by omega]
      have := sum_shift (Function.update (Function.update E 0 0) 0 0) (fun i => max (u i) (v i)) 1 0 nv
        (fun i h1 h2 => by
          rw [Function.update_of_ne (by omega), Function.update_of_ne (by omega)]; exact e2 i h1 h2)
      rw [Nat.zero_add] at this ⊢
      exact this
    · rw [Function.update_of_ne (by omega), Function.update_of_ne (by omega), Function.update_of_ne (by omega)]
      obtain ⟨i, rfl⟩ : ∃ i, j = i + 1 := ⟨j - 1, by omega⟩
      rw [e2 i (by omega) (by omega), w2 i (by omega) (by omega), hmax i (by omega)]
  · have hb : ebl nev = nev + 1 := by unfold ebl; rw [if_neg h0]
    have ho : off nev = 2 := by unfold off; rw [hb]; omega
    have hl : evl nv nev = nv + 2 := by unfold evl; rw [if_neg h0]
    rw [ho] at e2 w2
    rw [hb] at w3 ⊢
    rw [hl]
    set F := Function.update (Function.update E 0 0) (nev + 1) 0 with hF
    have F0 : F 0 = 0 := by rw [hF, Function.update_of_ne (by omega), Function.update_self]
    have Fb : F (nev + 1) = 0 := by rw [hF, Function.update_self]
    have Fo : ∀ j, j ≠ 0 → j ≠ nev + 1 → F j = E j := fun j h1 h2 => by
      rw [hF, Function.update_of_ne h2, Function.update_of_ne h1]
    rw [accum_spec 0 _ _ F (Or.inl (by omega)) (by rw [F0]; omega)]
    rw [F0, Nat.zero_add, show 1 + (nev + 1 - 1) = nev + 1 by omega]
    have hs1 : ∑ i ∈ Ico 1 (nev + 1), F i = ∑ i ∈ range nev, max (u i) (v i) := by
      have := sum_shift F (fun i => max (u i) (v i)) 1 0 nev
        (fun i h1 h2 => by rw [Fo _ (by omega) (by omega)]; exact e1 i h2)
      rw [Nat.zero_add] at this
      rw [this, range_eq_Ico]
    rw [hs1]
    set G := Function.update F 0 ((∑ i ∈ range nev, max (u i) (v i)) % 65536) with hG
    have Gb : G (nev + 1) = 0 := by rw [hG, Function.update_of_ne (by omega), Fb]
    rw [accum_spec (nev + 1) _ _ G (Or.inl (by omega)) (by rw [Gb]; omega)]
    rw [Gb, Nat.zero_add, show nev + 1 + 1 + (nv + 2 - (nev + 1 + 1)) = nv + 2 by omega]
    have hs2 : ∑ i ∈ Ico (nev + 1 + 1) (nv + 2), G i = ∑ i ∈ Ico nev nv, max (u i) (v i) :=
      sum_shift G (fun i => max (u i) (v i)) 2 nev nv
        (fun i h1 h2 => by
          rw [hG, Function.update_of_ne (by omega), Fo _ (by omega) (by omega)]; exact e2 i h1 h2)
    rw [hs2]
    intro j hj
    by_cases c1 : j = nev + 1
    · rw [c1, Function.update_self, w3]
    rw [Function.update_of_ne c1]
    by_cases c2 : j = 0
    · rw [c2, hG, Function.update_self, w4 (by omega)]
    rw [hG, Function.update_of_ne c2, Fo _ c2 c1]
    rcases Nat.lt_or_ge j (nev + 1) with c3 | c3
    · obtain ⟨i, rfl⟩ : ∃ i, j = i + 1 := ⟨j - 1, by omega⟩
      rw [e1 i (by omega), w1 i (by omega), hmax i (by omega)]
    · obtain ⟨i, rfl⟩ : ∃ i, j = i + 2 := ⟨j - 2, by omega⟩
      rw [e2 i (by omega) (by omega), w2 i (by omega) (by omega), hmax i (by omega)]

theorem noCommon_iff (ea eb : Nat → Nat) (lo cnt : Nat) :
    noCommon ea eb lo cnt = true ↔ ∀ i, lo ≤ i → i < lo + cnt → ea i = 0 ∨ eb i = 0 := by
  unfold noCommon
  rw [List.all_eq_true]
  constructor
  · intro h i h1 h2
    have := h i (List.mem_range'_1.mpr ⟨h1, h2⟩)
    simp only [Bool.not_eq_true', Bool.and_eq_false_iff, decide_eq_false_iff_not, not_not] at this
    exact this
  · intro h i hi
    rw [List.mem_range'_1] at hi
    have := h i hi.1 hi.2
    simp only [Bool.not_eq_true', Bool.and_eq_false_iff, decide_eq_false_iff_not, not_not]
    exact this

theorem primeMonomials_spec (nv nev : Nat) (hle : nev ≤ nv) (u v bu bv : Nat → Nat)
    (hu : ∀ i < nv, u i < 65536) (hv : ∀ i < nv, v i < 65536) :
    primeMonomials (evl nv nev) (ebl nev) (setEv nv nev u bu) (setEv nv nev v bv) = true ↔
      ∀ i < nv, u i = 0 ∨ v i = 0 := by
  obtain ⟨u1, u2, -, -⟩ := setEv_spec nv nev hle u bu
  obtain ⟨v1, v2, -, -⟩ := setEv_spec nv nev hle v bv
  unfold primeMonomials
  rw [Bool.and_eq_true, noCommon_iff, noCommon_iff]
  have hoff : off nev + nev = ebl nev + 1 := by unfold off ebl; split_ifs <;> omega
  have hevl : nv + off nev = evl nv nev := by unfold off evl ebl; split_ifs <;> omega
  have hebl : ebl nev - 1 = nev := by unfold ebl; split_ifs <;> omega
  constructor
  · rintro ⟨h1, h2⟩ i hi
    rcases Nat.lt_or_ge i nev with c | c
    · have := h1 (i + 1) (by omega) (by omega)
      rw [u1 i c, v1 i c, Nat.mod_eq_of_lt (hu i hi), Nat.mod_eq_of_lt (hv i hi)] at this
      exact this
    · have := h2 (i + off nev) (by omega) (by omega)
      rw [u2 i c hi, v2 i c hi, Nat.mod_eq_of_lt (hu i hi), Nat.mod_eq_of_lt (hv i hi)] at this
      exact this
  · intro h
    constructor
    · intro j h1 h2
      obtain ⟨i, rfl⟩ : ∃ i, j = i + 1 := ⟨j - 1, by omega⟩
      rw [u1 i (by omega), v1 i (by omega), Nat.mod_eq_of_lt (hu i (by omega)),
        Nat.mod_eq_of_lt (hv i (by omega))]
      exact h i (by omega)
    · intro j h1 h2
      obtain ⟨i, rfl⟩ : ∃ i, j = i + off nev := ⟨j - off nev, by omega⟩
      rw [u2 i (by omega) (by omega), v2 i (by omega) (by omega), Nat.mod_eq_of_lt (hu i (by omega)),
        Nat.mod_eq_of_lt (hv i (by omega))]
      exact h i (by omega)

end Verif.Lcm
