import Mathlib.Tactic.FinCases
import Verif.Orders

/-! Properties C07, C08, C09: the monomial comparisons are the textbook admissible orders.

`setEv nv nev (ext u) buf` is the exponent vector the import code writes for the input exponents `u`
into a buffer with arbitrary previous content `buf`; `Verif.Spec` holds the textbook orders. -/

namespace Verif.Props

open Verif.Orders Verif.Spec Finset

variable {n : Nat}

/-! ### C07 -/

/-- C07: the degree reverse lexicographic order is an admissible monomial order. -/
theorem C07_drl_admissible (n : Nat) : Admissible (n := n) Drl := drl_admissible

/-- C07: on imported monomials of total degree below 2^16 the comparison returns a positive, zero,
negative number exactly if the first monomial is larger, equal, smaller in the textbook order. -/
theorem C07_drl_comparison (hn : 1 ≤ n) (u v : Fin n → ℕ) (bu bv : Nat → Nat)
    (hu : ∑ i, u i < 65536) (hv : ∑ i, v i < 65536) :
    let c := cmpDrl (evl n 0) (setEv n 0 (ext u) bu) (setEv n 0 (ext v) bv)
    (0 < c ↔ Drl v u) ∧ (c = 0 ↔ u = v) ∧ (c < 0 ↔ Drl u v) := by
  intro c
  obtain ⟨h1, h2⟩ := setEv_drl u hu bu
  obtain ⟨h3, h4⟩ := setEv_drl v hv bv
  have h := cmpDrl_pos hn u v _ _ h1 h3 h2 h4
  have e : evl n 0 = n + 1 := rfl
  change (0 < cmpDrl (n + 1) _ _ ↔ _) ∧ (cmpDrl (n + 1) _ _ = 0 ↔ _) ∧ (cmpDrl (n + 1) _ _ < 0 ↔ _)
  refine ⟨h.1, ?_, h.2⟩
  have A := drl_admissible (n := n)
  constructor
  · intro h0
    rcases A.total u v with g | g | g
    · have := h.2.mpr g; omega
    · exact g
    · have := h.1.mpr g; omega
  · intro h0
    by_contra hc
    rcases lt_or_gt_of_ne hc with g | g
    · have := h.2.mp g; rw [h0] at this; exact A.irrefl _ this
    · have := h.1.mp g; rw [h0] at this; exact A.irrefl _ this

/-- C07: the comparison used to sort the terms of an input polynomial is the monomial comparison, the
one used to sort generators is its reverse, and the one used to sort matrix columns puts the columns
of larger class (pivot columns) first and reverses the monomial comparison within a class. -/
theorem C07_drl_sorting_variants (e ia ib : Nat) (a b : Nat → Nat) :
    initialInputCmpDrl e a b = cmpDrl e a b ∧
    initialGensCmpDrl e a b = - cmpDrl e a b ∧
    (ia = ib → cmpPivotsDrl e ia ib a b = - cmpDrl e a b) ∧
    (ib < ia → cmpPivotsDrl e ia ib a b < 0) ∧ (ia < ib → 0 < cmpPivotsDrl e ia ib a b) := by
  refine ⟨initialInputCmpDrl_eq e a b, initialGensCmpDrl_eq e a b, cmpPivotsDrl_eq e ia ib a b, ?_, ?_⟩
  · intro h; unfold cmpPivotsDrl; rw [if_pos (by omega), if_neg (by omega)]; norm_num
  · intro h; unfold cmpPivotsDrl; rw [if_pos (by omega), if_pos (by omega)]; norm_num

/-- C07: without the degree bound the property is false: the degree entry is a 16 bit number, so
`x^65535*y` (degree 65536, stored as 0) compares smaller than `x`. -/
theorem C07_drl_degree_overflow :
    ∃ u v : Fin 2 → ℕ, (∀ i, u i < 65536) ∧ (∀ i, v i < 65536) ∧ Drl v u ∧
      ∀ bu bv, cmpDrl (evl 2 0) (setEv 2 0 (ext u) bu) (setEv 2 0 (ext v) bv) < 0 := by
  refine ⟨![65535, 1], ![1, 0], ?_, ?_, ?_, ?_⟩
  · intro i; fin_cases i <;> simp
  · intro i; fin_cases i <;> simp
  · left; simp [Fin.sum_univ_two]
  · intro bu bv
    obtain ⟨-, -, h, -⟩ := setEv_spec 2 0 (by omega) (ext ![65535, 1]) bu
    obtain ⟨-, -, g, -⟩ := setEv_spec 2 0 (by omega) (ext ![1, 0]) bv
    have e1 : setEv 2 0 (ext ![65535, 1]) bu 0 = 0 := by
      have : ebl 0 = 0 := rfl
      rw [this] at h
      rw [h, sum_ext_Ico _ 0 2 (le_refl _)]
      decide
    have e2 : setEv 2 0 (ext ![1, 0]) bv 0 = 1 := by
      have : ebl 0 = 0 := rfl
      rw [this] at g
      rw [g, sum_ext_Ico _ 0 2 (le_refl _)]
      decide
    unfold cmpDrl
    rw [e1, e2]
    norm_num

example : ∃ u v : Fin 3 → ℕ, ∑ i, u i < 65536 ∧ ∑ i, v i < 65536 ∧ Drl v u ∧ ¬ Lex v u := by
  refine ⟨![0, 2, 0], ![1, 0, 1], by decide, by decide, ?_, ?_⟩
  · right; exact ⟨by decide, 2, by decide, by decide, by decide⟩
  · rintro ⟨i, h1, h2⟩
    fin_cases i
    · simp at h1
    · have := h2 0 (by decide); simp at this
    · simp at h1

/-! ### C08 -/

/-- C08: the two block elimination order is an admissible monomial order. -/
theorem C08_be_admissible (n k : Nat) : Admissible (n := n) (Be k) := be_admissible k

/-- C08: on imported monomials of total degree below 2^16 the comparison decides the block order. -/
theorem C08_be_comparison (k : Nat) (hk : 0 < k) (hkn : k ≤ n) (u v : Fin n → ℕ) (bu bv : Nat → Nat)
    (hu : ∑ i, u i < 65536) (hv : ∑ i, v i < 65536) :
    let c := cmpBe (evl n k) (ebl k) (setEv n k (ext u) bu) (setEv n k (ext v) bv)
    (0 < c ↔ Be k v u) ∧ (c = 0 ↔ u = v) ∧ (c < 0 ↔ Be k u v) := by
  intro c
  obtain ⟨h1, h2, h3, h4⟩ := setEv_be k hk hkn u hu bu
  obtain ⟨g1, g2, g3, g4⟩ := setEv_be k hk hkn v hv bv
  have e1 : evl n k = n + 2 := by unfold evl; rw [if_neg (by omega)]
  have e2 : ebl k = k + 1 := by unfold ebl; rw [if_neg (by omega)]
  have hc : c = cmpBe (n + 2) (k + 1) (setEv n k (ext u) bu) (setEv n k (ext v) bv) := by
    change cmpBe (evl n k) (ebl k) _ _ = _
    rw [e1, e2]
  have p1 := cmpBe_pos k hk hkn u v _ _ h1 g1 h2 g2 h3 g3 h4 g4
  have p2 := cmpBe_pos k hk hkn v u _ _ g1 h1 g2 h2 g3 h3 g4 h4
  rw [cmpBe_symm, ← hc] at p2
  rw [← hc] at p1
  have A := be_admissible (n := n) k
  refine ⟨p1, ⟨fun h0 => ?_, fun h0 => ?_⟩, by rw [← p2]; omega⟩
  · rcases A.total u v with g | g | g
    · have := p2.mpr g; omega
    · exact g
    · have := p1.mpr g; omega
  · subst h0
    by_contra hc'
    rcases lt_or_gt_of_ne hc' with g | g
    · exact A.irrefl _ (p2.mp (by omega))
    · exact A.irrefl _ (p1.mp g)

/-- C08: elimination property: a monomial involving one of the first `k` variables is larger than any
monomial that involves none of them, in the code's comparison. -/
theorem C08_be_eliminates (k : Nat) (hk : 0 < k) (hkn : k ≤ n) (u v : Fin n → ℕ) (bu bv : Nat → Nat)
    (hu : ∑ i, u i < 65536) (hv : ∑ i, v i < 65536)
    (h1 : ∃ i : Fin n, i.val < k ∧ u i ≠ 0) (h2 : ∀ i : Fin n, i.val < k → v i = 0) :
    0 < cmpBe (evl n k) (ebl k) (setEv n k (ext u) bu) (setEv n k (ext v) bv) := by
  rw [(C08_be_comparison k hk hkn u v bu bv hu hv).1]
  left; left
  obtain ⟨i, hi, hne⟩ := h1
  rw [sum_eq_zero (fun j hj => h2 j (mem_filter.mp hj).2)]
  exact sum_pos' (fun _ _ => Nat.zero_le _)
    ⟨i, mem_filter.mpr ⟨mem_univ i, hi⟩, Nat.pos_of_ne_zero hne⟩

/-- C08: the comparison used for sorting matrix columns puts columns of larger class first and reverses
the block comparison within a class. -/
theorem C08_be_sorting_variants (e l ia ib : Nat) (a b : Nat → Nat) :
    (ia = ib → cmpPivotsBe e l ia ib a b = - cmpBe e l a b) ∧
    (ib < ia → cmpPivotsBe e l ia ib a b < 0) ∧ (ia < ib → 0 < cmpPivotsBe e l ia ib a b) := by
  refine ⟨cmpPivotsBe_eq e l ia ib a b, ?_, ?_⟩
  · intro h; unfold cmpPivotsBe; rw [if_pos (by omega), if_neg (by omega)]; norm_num
  · intro h; unfold cmpPivotsBe; rw [if_pos (by omega), if_pos (by omega)]; norm_num

example : ∃ u v : Fin 3 → ℕ, ∑ i, u i < 65536 ∧ ∑ i, v i < 65536 ∧
    (∃ i : Fin 3, i.val < 1 ∧ u i ≠ 0) ∧ (∀ i : Fin 3, i.val < 1 → v i = 0) ∧ Drl u v :=
  ⟨![1, 0, 0], ![0, 2, 3], by decide, by decide, ⟨0, by decide, by decide⟩, by decide,
    Or.inl (by decide)⟩

/-! ### C09 -/

/-- C09: the lexicographic order is an admissible monomial order. -/
theorem C09_lex_admissible (n : Nat) : Admissible (n := n) Lex := lex_admissible

/-- C09: on imported monomials whose exponents fit in 16 bits the comparison decides the
lexicographic order (no condition on the total degree: the degree entry is not read). -/
theorem C09_lex_comparison (hn : 1 ≤ n) (u v : Fin n → ℕ) (bu bv : Nat → Nat)
    (hu : ∀ i, u i < 65536) (hv : ∀ i, v i < 65536) :
    let c := cmpLex (evl n 0) (setEv n 0 (ext u) bu) (setEv n 0 (ext v) bv)
    (0 < c ↔ Lex v u) ∧ (c = 0 ↔ u = v) ∧ (c < 0 ↔ Lex u v) := by
  intro c
  have key : ∀ (w : Fin n → ℕ) (b : Nat → Nat), (∀ i, w i < 65536) →
      ∀ i : Fin n, setEv n 0 (ext w) b (i.val + 1) = w i := by
    intro w b hw i
    obtain ⟨-, h, -, -⟩ := setEv_spec n 0 (by omega) (ext w) b
    have := h i.val (Nat.zero_le _) i.isLt
    rw [ext_val, show off 0 = 1 from rfl, Nat.mod_eq_of_lt (hw i)] at this
    exact this
  have p1 := scanUp_lt _ _ u v hn (key u bu hu) (key v bv hv)
  have p2 := scanUp_lt _ _ v u hn (key v bv hv) (key u bu hu)
  rw [scanUp_symm] at p2
  have hc : c = ((setEv n 0 (ext u) bu) (scanUp (setEv n 0 (ext u) bu) (setEv n 0 (ext v) bv) n 1) : Int)
      - (setEv n 0 (ext v) bv) (scanUp (setEv n 0 (ext u) bu) (setEv n 0 (ext v) bv) n 1) := rfl
  have A := lex_admissible (n := n)
  have q1 : c < 0 ↔ Lex u v := by rw [← p1, hc]; omega
  have q2 : 0 < c ↔ Lex v u := by rw [← p2, hc]; omega
  refine ⟨q2, ⟨fun h0 => ?_, fun h0 => ?_⟩, q1⟩
  · rcases A.total u v with g | g | g
    · have := q1.mpr g; omega
    · exact g
    · have := q2.mpr g; omega
  · subst h0
    by_contra hc'
    rcases lt_or_gt_of_ne hc' with g | g
    · exact A.irrefl _ (q1.mp g)
    · exact A.irrefl _ (q2.mp g)

/-- C09: column sorting variant. -/
theorem C09_lex_sorting_variants (e ia ib : Nat) (a b : Nat → Nat) :
    (ia = ib → cmpPivotsLex e ia ib a b = - cmpLex e a b) ∧
    (ib < ia → cmpPivotsLex e ia ib a b < 0) ∧ (ia < ib → 0 < cmpPivotsLex e ia ib a b) := by
  refine ⟨cmpPivotsLex_eq e ia ib a b, ?_, ?_⟩
  · intro h; unfold cmpPivotsLex; rw [if_pos (by omega), if_neg (by omega)]; norm_num
  · intro h; unfold cmpPivotsLex; rw [if_pos (by omega), if_pos (by omega)]; norm_num

example : ∃ u v : Fin 2 → ℕ, (∀ i, u i < 65536) ∧ (∀ i, v i < 65536) ∧ Lex v u ∧ Drl u v :=
  ⟨![1, 0], ![0, 2], by decide, by decide, ⟨0, by decide, by decide⟩, Or.inl (by decide)⟩

end Verif.Props
