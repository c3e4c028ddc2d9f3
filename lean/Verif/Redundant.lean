import Mathlib.Data.List.Basic
import Mathlib.Data.List.Nodup
import Mathlib.Logic.Function.Basic
import Mathlib.Tactic.Linarith

/-!
Removal of redundant basis elements.
Source: src/neogb/f4.c 25-62 (`final_remove_redundant_elements`), 488-518 (the same code in
`process_redundant_elements`), 311-330 (last loop of `reduce_basis`).

`div b x` stands for `check_monomial_division(bs->hm[b][OFFSET], bs->hm[x][OFFSET], ht)`: the leading
monomial of `x` divides the one of `b` (modelled in `Verif.DivMask`, property C10).
-/
namespace Verif.Redundant

/-- f4.c 34-42 and 43-51: an inner loop looks for the first element of `l` that is not marked and divides. -/
def findDiv (div : Nat → Nat → Bool) (red : Nat → Bool) (b : Nat) : List Nat → Bool
  | [] => false
  | x :: l => if red x = false ∧ div b x = true then true else findDiv div red b l

/-- f4.c 32-52: one turn of the outer loop; `none` if `i` is outside the array. The counter
`num_redundant` (statistics only) is left out. -/
def markStep (div : Nat → Nat → Bool) (lmps : List Nat) (red : Nat → Bool) (i : Nat) :
    Option (Nat → Bool) :=
  (lmps[i]?).map fun b =>
    let red1 := if findDiv div red b (lmps.take i) then Function.update red b true else red
    if findDiv div red1 b (lmps.drop (i + 1)) then Function.update red1 b true else red1

/-- f4.c 32-52: the outer loop, `cnt` turns from `i` on. -/
def markLoop (div : Nat → Nat → Bool) (lmps : List Nat) : Nat → Nat → (Nat → Bool) → Option (Nat → Bool)
  | 0, _, red => some red
  | cnt + 1, i, red => (markStep div lmps red i).bind fun red' => markLoop div lmps cnt (i + 1) red'

/-- f4.c 53-60: the entries with `keep` are moved to the front of the array, in place; `i` reads, `j`
writes; returns the array and its new length. -/
def compact {α : Type} (keep : α → Bool) : Nat → Nat → Nat → (Nat → α) → (Nat → α) × Nat
  | 0, _, j, a => (a, j)
  | cnt + 1, i, j, a =>
    if keep (a i) then compact keep cnt (i + 1) (j + 1) (Function.update a j (a i))
    else compact keep cnt (i + 1) j a

/-- f4.c 25-62: the whole function; the array `a` holds the pairs (`bs->lm[i]`, `bs->lmps[i]`). Returns the
marks, the arrays and `bs->lml`. -/
def removeRedundant {σ : Type} (div : Nat → Nat → Bool) (lml : Nat) (a : Nat → σ × Nat) (red : Nat → Bool) :
    Option ((Nat → Bool) × (Nat → σ × Nat) × Nat) :=
  (markLoop div ((List.range lml).map fun i => (a i).2) lml 0 red).map fun red' =>
    (red', compact (fun x => !red' x.2) lml 0 0 a)

/-- f4.c 313-329, the loop with label `start` of `reduce_basis`: elements `ld-1, ld-2, ...` are kept unless
a kept one divides; returns the list of kept ones (`bs->lmps`). -/
def keepLoop (div : Nat → Nat → Bool) : List Nat → List Nat → List Nat
  | [], kept => kept
  | x :: l, kept => if kept.any (fun y => div x y) then keepLoop div l kept else keepLoop div l (kept ++ [x])

/-- f4.c 311-330. -/
def keepReduced (div : Nat → Nat → Bool) (ld : Nat) : List Nat :=
  keepLoop div ((List.range ld).map fun i => ld - 1 - i) []

/-! ### Facts -/

theorem findDiv_iff (div : Nat → Nat → Bool) (red : Nat → Bool) (b : Nat) (l : List Nat) :
    findDiv div red b l = true ↔ ∃ x ∈ l, red x = false ∧ div b x = true := by
  induction l with
  | nil => simp [findDiv]
  | cons x l ih =>
    simp only [findDiv]
    split_ifs with h
    · simp only [true_iff]
      exact ⟨x, List.mem_cons_self, h⟩
    · rw [ih]
      constructor
      · rintro ⟨y, hy, h'⟩; exact ⟨y, List.mem_cons_of_mem _ hy, h'⟩
      · rintro ⟨y, hy, h'⟩
        rcases List.mem_cons.mp hy with rfl | hy
        · exact absurd h' h
        · exact ⟨y, hy, h'⟩

theorem mem_take_or_drop {l : List Nat} {i : Nat} {x b : Nat} (hb : l[i]? = some b) (hx : x ∈ l) (hne : x ≠ b) :
    x ∈ l.take i ∨ x ∈ l.drop (i + 1) := by
  obtain ⟨j, hj, rfl⟩ := List.mem_iff_getElem.mp hx
  rcases Nat.lt_trichotomy j i with h | h | h
  · left; rw [List.mem_take_iff_getElem]; exact ⟨j, by omega, rfl⟩
  · exfalso; subst h
    rw [List.getElem?_eq_getElem hj] at hb
    exact hne (Option.some.inj hb)
  · right
    rw [List.mem_drop_iff_getElem]
    refine ⟨j - (i + 1), by omega, ?_⟩
    congr 1; omega

theorem not_mem_take_drop {l : List Nat} (hn : l.Nodup) {i : Nat} {b : Nat} (hb : l[i]? = some b) :
    b ∉ l.take i ∧ b ∉ l.drop (i + 1) := by
  obtain ⟨hi, e⟩ := List.getElem?_eq_some_iff.mp hb
  constructor
  · intro h
    rw [List.mem_take_iff_getElem] at h
    obtain ⟨j, hj, e'⟩ := h
    have := (hn.getElem_inj_iff).mp (e'.trans e.symm)
    omega
  · intro h
    rw [List.mem_drop_iff_getElem] at h
    obtain ⟨j, hj, e'⟩ := h
    have := (hn.getElem_inj_iff).mp (e'.trans e.symm)
    omega

/-- One turn: `b = lmps[i]` gets marked iff another unmarked element divides it. -/
theorem markStep_spec (div : Nat → Nat → Bool) (lmps : List Nat) (hn : lmps.Nodup) (red : Nat → Bool)
    (i b : Nat) (hb : lmps[i]? = some b) :
    ∃ red', markStep div lmps red i = some red' ∧ (∀ x, x ≠ b → red' x = red x) ∧
      ((∃ x ∈ lmps, x ≠ b ∧ red x = false ∧ div b x = true) → red' b = true) ∧
      ((¬ ∃ x ∈ lmps, x ≠ b ∧ red x = false ∧ div b x = true) → red' b = red b) := by
  obtain ⟨h1, h2⟩ := not_mem_take_drop hn hb
  have hbm : ∀ x, x ∈ lmps.take i → x ∈ lmps := fun x hx => List.mem_of_mem_take hx
  have hbd : ∀ x, x ∈ lmps.drop (i + 1) → x ∈ lmps := fun x hx => List.mem_of_mem_drop hx
  unfold markStep
  rw [hb]
  simp only [Option.map_some, Option.some.injEq, exists_eq_left']
  by_cases c1 : findDiv div red b (lmps.take i) = true
  · rw [if_pos c1]
    obtain ⟨y, hy, hy'⟩ := (findDiv_iff _ _ _ _).mp c1
    have hyb : y ≠ b := fun h => h1 (h ▸ hy)
    refine ⟨?_, ?_, ?_⟩
    · intro x hx
      split_ifs <;> simp [Function.update_of_ne hx]
    · intro _
      split_ifs <;> simp
    · intro h; exact absurd ⟨y, hbm y hy, hyb, hy'⟩ h
  · rw [if_neg c1]
    by_cases c2 : findDiv div red b (lmps.drop (i + 1)) = true
    · rw [if_pos c2]
      obtain ⟨y, hy, hy'⟩ := (findDiv_iff _ _ _ _).mp c2
      have hyb : y ≠ b := fun h => h2 (h ▸ hy)
      refine ⟨fun x hx => Function.update_of_ne hx _ _, fun _ => Function.update_self _ _ _, ?_⟩
      intro h; exact absurd ⟨y, hbd y hy, hyb, hy'⟩ h
    · rw [if_neg c2]
      refine ⟨fun _ _ => rfl, ?_, fun _ => rfl⟩
      rintro ⟨x, hx, hne, hr⟩
      rcases mem_take_or_drop hb hx hne with h | h
      · exact absurd ((findDiv_iff _ _ _ _).mpr ⟨x, h, hr⟩) c1
      · exact absurd ((findDiv_iff _ _ _ _).mpr ⟨x, h, hr⟩) c2

/-- The marking loop. -/
theorem markLoop_spec (div : Nat → Nat → Bool) (lmps : List Nat) (hn : lmps.Nodup)
    (htrans : ∀ a b c, div a b = true → div b c = true → div a c = true) (red0 : Nat → Bool) :
    ∀ (cnt i : Nat) (red : Nat → Bool), i + cnt = lmps.length →
      (∀ x, red0 x = true → red x = true) →
      (∀ x, x ∉ lmps → red x = red0 x) →
      (∀ j b, j < i → lmps[j]? = some b → red b = false →
        ∀ x ∈ lmps, x ≠ b → red x = false → div b x = false) →
      (∀ b ∈ lmps, red0 b = false → red b = false ∨ ∃ x ∈ lmps, red x = false ∧ div b x = true) →
      ∃ red', markLoop div lmps cnt i red = some red' ∧
        (∀ x, red0 x = true → red' x = true) ∧
        (∀ x, x ∉ lmps → red' x = red0 x) ∧
        (∀ b ∈ lmps, red' b = false → ∀ x ∈ lmps, x ≠ b → red' x = false → div b x = false) ∧
        (∀ b ∈ lmps, red0 b = false → red' b = false ∨ ∃ x ∈ lmps, red' x = false ∧ div b x = true) := by
  intro cnt
  induction cnt with
  | zero =>
    intro i red hi h0 hout hdone hcov
    refine ⟨red, rfl, h0, hout, ?_, hcov⟩
    intro b hb hr x hx
    obtain ⟨j, hj, rfl⟩ := List.mem_iff_getElem.mp hb
    exact hdone j _ (by omega) (List.getElem?_eq_getElem hj) hr x hx
  | succ cnt ih =>
    intro i red hi h0 hout hdone hcov
    have hil : i < lmps.length := by omega
    have hb : lmps[i]? = some lmps[i] := List.getElem?_eq_getElem hil
    obtain ⟨red', e, hne, hmark, hkeep⟩ := markStep_spec div lmps hn red i lmps[i] hb
    have hmem : lmps[i] ∈ lmps := List.getElem_mem hil
    have hmono : ∀ x, red x = true → red' x = true := by
      intro x hx
      by_cases hxb : x = lmps[i]
      · by_cases hex : ∃ x ∈ lmps, x ≠ lmps[i] ∧ red x = false ∧ div lmps[i] x = true
        · rw [hxb]; exact hmark hex
        · rw [hxb, hkeep hex, ← hxb]; exact hx
      · rw [hne x hxb]; exact hx
    have hanti : ∀ x, red' x = false → red x = false := by
      intro x hx
      cases h : red x
      · rfl
      · rw [hmono x h] at hx; exact hx
    have := ih (i + 1) red' (by omega) (fun x hx => hmono x (h0 x hx))
      (fun x hx => by rw [hne x (fun h => hx (h ▸ hmem))]; exact hout x hx) ?_ ?_
    · obtain ⟨r, hr⟩ := this
      refine ⟨r, ?_, hr.2⟩
      simp only [markLoop]
      rw [e]
      exact hr.1
    · intro j b hj hjb hrb x hx hxb hrx
      by_cases hji : j = i
      · subst hji
        rw [hb] at hjb
        obtain rfl := Option.some.inj hjb
        cases hd : div lmps[j] x
        · rfl
        · exfalso
          have := hmark ⟨x, hx, hxb, hanti x hrx, hd⟩
          rw [this] at hrb
          exact absurd hrb (by simp)
      · exact hdone j b (by omega) hjb (hanti b hrb) x hx hxb (hanti x hrx)
    · intro b hbm hb0
      -- if `lmps[i]` gets marked, it has an unmarked divisor different from it
      have hrepl : ∀ y ∈ lmps, red y = false → ∃ z ∈ lmps, red' z = false ∧ (z = y ∨ div y z = true) := by
        intro y hy hry
        by_cases hyb : y = lmps[i]
        · by_cases hex : ∃ x ∈ lmps, x ≠ lmps[i] ∧ red x = false ∧ div lmps[i] x = true
          · obtain ⟨x, hx, hxne, hxr, hxd⟩ := hex
            exact ⟨x, hx, by rw [hne x hxne]; exact hxr, Or.inr (by rw [hyb]; exact hxd)⟩
          · exact ⟨y, hy, by rw [hyb, hkeep hex, ← hyb]; exact hry, Or.inl rfl⟩
        · exact ⟨y, hy, by rw [hne y hyb]; exact hry, Or.inl rfl⟩
      rcases hcov b hbm hb0 with h | ⟨x, hx, hxr, hxd⟩
      · obtain ⟨z, hz, hzr, rfl | hzd⟩ := hrepl b hbm h
        · exact Or.inl hzr
        · exact Or.inr ⟨z, hz, hzr, hzd⟩
      · obtain ⟨z, hz, hzr, rfl | hzd⟩ := hrepl x hx hxr
        · exact Or.inr ⟨z, hz, hzr, hxd⟩
        · exact Or.inr ⟨z, hz, hzr, htrans _ _ _ hxd hzd⟩

/-- In place compaction is filtering. -/
theorem compact_spec {α : Type} (keep : α → Bool) : ∀ (cnt i j : Nat) (a : Nat → α), j ≤ i →
    (List.range (compact keep cnt i j a).2).map (compact keep cnt i j a).1 =
      (List.range j).map a ++ ((List.range' i cnt).map a).filter keep := by
  intro cnt
  induction cnt with
  | zero => intro i j a _; simp [compact]
  | succ cnt ih =>
    intro i j a hji
    have hrest : ∀ v : α, (List.range' (i + 1) cnt).map (Function.update a j v) =
        (List.range' (i + 1) cnt).map a := by
      intro v
      apply List.map_congr_left
      intro x hx
      rw [List.mem_range'_1] at hx
      exact Function.update_of_ne (by omega) _ _
    simp only [compact]
    split_ifs with h
    · rw [ih (i + 1) (j + 1) _ (by omega), hrest, List.range'_succ, List.map_cons, List.filter_cons_of_pos h,
        List.range_succ, List.map_append, List.append_assoc]
      have : (List.range j).map (Function.update a j (a i)) = (List.range j).map a := by
        apply List.map_congr_left
        intro x hx
        have := List.mem_range.mp hx
        exact Function.update_of_ne (by omega) _ _
      rw [this]
      simp
    · rw [ih (i + 1) j _ (by omega), List.range'_succ, List.map_cons, List.filter_cons_of_neg h]

theorem removeRedundant_spec {σ : Type} (div : Nat → Nat → Bool) (lml : Nat) (a : Nat → σ × Nat)
    (red : Nat → Bool) (hn : ((List.range lml).map fun i => (a i).2).Nodup)
    (htrans : ∀ x y z, div x y = true → div y z = true → div x z = true)
    (hrefl : ∀ x, div x x = true) :
    ∃ red' a' lml', removeRedundant div lml a red = some (red', a', lml') ∧
      (((List.range lml').map a').Sublist ((List.range lml).map a)) ∧
      (∀ i < lml, red (a i).2 = false → ∃ j < lml', div (a i).2 (a' j).2 = true) ∧
      (∀ i < lml', ∀ j < lml', i ≠ j → div (a' i).2 (a' j).2 = false) ∧
      (∀ i < lml', red (a' i).2 = false ∧ red' (a' i).2 = false) ∧
      (∀ i < lml, red' (a i).2 = false → ∃ j < lml', a' j = a i) := by
  set lmps := (List.range lml).map fun i => (a i).2 with hl
  have hlen : lmps.length = lml := by simp [hl]
  obtain ⟨red', e, h0, hout, hmin, hcov⟩ := markLoop_spec div lmps hn htrans red lml 0 red (by omega)
    (fun _ h => h) (fun _ _ => rfl) (fun j b hj => by omega) (fun b _ h => Or.inl h)
  refine ⟨red', (compact (fun x => !red' x.2) lml 0 0 a).1, (compact (fun x => !red' x.2) lml 0 0 a).2, ?_, ?_⟩
  · unfold removeRedundant
    rw [← hl, e]
    rfl
  have hc := compact_spec (fun x : σ × Nat => !red' x.2) lml 0 0 a (le_refl _)
  rw [List.range_zero, List.map_nil, List.nil_append, ← List.range_eq_range'] at hc
  set a' := (compact (fun x : σ × Nat => !red' x.2) lml 0 0 a).1
  set lml' := (compact (fun x : σ × Nat => !red' x.2) lml 0 0 a).2
  have hmem' : ∀ i < lml', ∃ k < lml, a k = a' i ∧ red' (a' i).2 = false := by
    intro i hi
    have : a' i ∈ (List.range lml').map a' := List.mem_map.mpr ⟨i, List.mem_range.mpr hi, rfl⟩
    rw [hc, List.mem_filter] at this
    obtain ⟨h1, h2⟩ := this
    obtain ⟨k, hk, ek⟩ := List.mem_map.mp h1
    exact ⟨k, List.mem_range.mp hk, ek, by simpa using h2⟩
  have hfind : ∀ i < lml, red' (a i).2 = false → ∃ j < lml', a' j = a i := by
    intro i hi hr
    have : a i ∈ (List.range lml').map a' := by
      rw [hc, List.mem_filter]
      exact ⟨List.mem_map.mpr ⟨i, List.mem_range.mpr hi, rfl⟩, by simpa using hr⟩
    obtain ⟨k, hk, ek⟩ := List.mem_map.mp this
    exact ⟨k, List.mem_range.mp hk, ek⟩
  have hlm : ∀ i < lml, (a i).2 ∈ lmps := fun i hi =>
    List.mem_map.mpr ⟨i, List.mem_range.mpr hi, rfl⟩
  have hnd' : ((List.range lml').map fun i => (a' i).2).Nodup := by
    have : ((List.range lml').map fun i => (a' i).2).Sublist lmps := by
      have h1 : ((List.range lml').map fun i => (a' i).2) = ((List.range lml').map a').map Prod.snd := by
        rw [List.map_map]; rfl
      have h2 : lmps = ((List.range lml).map a).map Prod.snd := by rw [List.map_map]; rfl
      rw [h1, h2, hc]
      exact List.filter_sublist.map _
    exact this.nodup hn
  refine ⟨?_, ?_, ?_, ?_, hfind⟩
  · rw [hc]; exact List.filter_sublist
  · intro i hi hr
    rcases hcov _ (hlm i hi) hr with h | ⟨x, hx, hxr, hxd⟩
    · obtain ⟨j, hj, ej⟩ := hfind i hi h
      exact ⟨j, hj, by rw [ej]; exact hrefl _⟩
    · obtain ⟨k, hk, rfl⟩ := List.mem_map.mp hx
      obtain ⟨j, hj, ej⟩ := hfind k (List.mem_range.mp hk) hxr
      exact ⟨j, hj, by rw [ej]; exact hxd⟩
  · intro i hi j hj hij
    obtain ⟨k, hk, ek, hkr⟩ := hmem' i hi
    obtain ⟨l, hlt, el, hlr⟩ := hmem' j hj
    refine hmin _ (by rw [← ek]; exact hlm k hk) hkr _ (by rw [← el]; exact hlm l hlt) ?_ hlr
    intro he
    apply hij
    have h1 : i < ((List.range lml').map fun i => (a' i).2).length := by simpa using hi
    have h2 : j < ((List.range lml').map fun i => (a' i).2).length := by simpa using hj
    apply (hnd'.getElem_inj_iff (hi := h1) (hj := h2)).mp
    simp [he]
  · intro i hi
    obtain ⟨k, hk, ek, hkr⟩ := hmem' i hi
    refine ⟨?_, hkr⟩
    cases h : red (a' i).2
    · rfl
    · rw [h0 _ h] at hkr; exact absurd hkr (by simp)

/-- Covering and minimality of the keep loop; `lt` is a strict order in which the processed elements
increase and which extends proper divisibility. -/
theorem keepLoop_spec (div : Nat → Nat → Bool) (lt : Nat → Nat → Prop)
    (hdiv : ∀ x y, div x y = true → ¬ lt x y)
    (hrefl : ∀ x, div x x = true) :
    ∀ (l kept : List Nat), l.Pairwise lt → (∀ y ∈ kept, ∀ x ∈ l, lt y x) →
      kept.Pairwise (fun x y => div y x = false ∧ div x y = false) →
      ∃ new, keepLoop div l kept = kept ++ new ∧ new.Sublist l ∧
        (keepLoop div l kept).Pairwise (fun x y => div y x = false ∧ div x y = false) ∧
        ∀ x ∈ l, ∃ y ∈ keepLoop div l kept, div x y = true := by
  intro l
  induction l with
  | nil => intro kept _ _ hk; exact ⟨[], by simp [keepLoop], List.Sublist.refl _, hk, by simp⟩
  | cons x l ih =>
    intro kept hp hlt hk
    obtain ⟨hp1, hp2⟩ := List.pairwise_cons.mp hp
    simp only [keepLoop]
    split_ifs with h
    · obtain ⟨new, e, hs, hpw, hcov⟩ := ih kept hp2 (fun y hy z hz => hlt y hy z (List.mem_cons_of_mem _ hz)) hk
      refine ⟨new, e, hs.cons _, hpw, ?_⟩
      intro z hz
      rcases List.mem_cons.mp hz with rfl | hz
      · obtain ⟨y, hy, hd⟩ := List.any_eq_true.mp h
        exact ⟨y, by rw [e]; exact List.mem_append_left _ hy, hd⟩
      · exact hcov z hz
    · have hno : ∀ y ∈ kept, div x y = false := by
        intro y hy
        cases hd : div x y
        · rfl
        · exact absurd (List.any_eq_true.mpr ⟨y, hy, hd⟩) h
      have := ih (kept ++ [x]) hp2 ?_ ?_
      · obtain ⟨new, e, hs, hpw, hcov⟩ := this
        refine ⟨x :: new, by rw [e]; simp, hs.cons_cons _, hpw, ?_⟩
        intro z hz
        rcases List.mem_cons.mp hz with rfl | hz
        · exact ⟨z, by rw [e]; simp, hrefl z⟩
        · exact hcov z hz
      · intro y hy z hz
        rcases List.mem_append.mp hy with hy | hy
        · exact hlt y hy z (List.mem_cons_of_mem _ hz)
        · rw [List.mem_singleton.mp hy]; exact hp1 z hz
      · rw [List.pairwise_append]
        refine ⟨hk, List.pairwise_singleton _ _, ?_⟩
        intro y hy z hz
        rw [List.mem_singleton.mp hz]
        refine ⟨hno y hy, ?_⟩
        cases hd : div y x
        · rfl
        · exact absurd (hlt y hy x List.mem_cons_self) (hdiv y x hd)

end Verif.Redundant
