import Verif.URefine

/-!
Refinement of all roots.
Source: src/usolve/refine.c 649-666 (`get_values_at_bounds`), 706-720, 883-1052
(`refine_QIR_roots_adaptative`), src/usolve/usolve.c 1266-1340 (`real_roots`).
-/
namespace Verif.URefine
open Verif.UPoly Verif.UEval Verif.UScale Verif.USign Verif.UIsolate Verif.Isolate
open Polynomial

/-- refine.c 706-720 (`remove_exact_roots_by_division`); `none` if a division is not possible. -/
def removeExact : (ℕ → ℤ) → ℕ → List Ival → Option ((ℕ → ℤ) × ℕ)
  | up, deg, [] => some (up, deg)
  | up, deg, rt :: l =>
    if rt.exact = true then
      (numerQuotient up deg rt.numer (if rt.k < 0 then 0 else rt.k.toNat)).bind fun r => removeExact r.1 r.2 l
    else removeExact up deg l

/-- refine.c 904-908 and 991-995: the coefficients of odd degree are negated (here also those above the
degree, which are not read any more). -/
def altSign (up : ℕ → ℤ) : ℕ → ℤ := fun i => if i % 2 = 1 then -up i else up i

/-- The outcome of the refinement of one root. -/
inductive SRes where
  | fuel | exit
  | done (up : ℕ → ℤ) (deg : ℕ) (rt : Ival)

/-- refine.c 953-957, 1013-1017: the exponent of an exact root is not negative. -/
def fixExact (rt : Ival) : Ival := if rt.exact = true ∧ rt.k < 0 then { rt with k := 0 } else rt

/-- refine.c 934-951 and 1000-1018: evaluation at the ends, refinement and checks for an interval that is
not an exact root; `extra` is `d` or `1 + d`. The precision, converted to `int` by the code, is unbounded
here. -/
def refineOne (shl : ℕ → ℤ) (fuel : ℕ) (prec extra : ℤ) (up : ℕ → ℤ) (deg : ℕ) (rt : Ival) : SRes :=
  let v := valuesAtBounds up deg rt.numer rt.k
  if v.1 = 0 ∨ v.2 = 0 then .exit
  else
    match qir shl fuel (prec + ((deg : ℤ) - 1) * max 0 extra / 32) fuel 2 ⟨up, deg, rt, v.1, v.2⟩ with
    | .fuel => .fuel
    | .exit => .exit
    | .done t => if t.va.sign = t.vb.sign then .exit else .done t.up t.deg (fixExact t.rt)

/-- refine.c 997-1030: one turn of the loop over the roots that are not negative. -/
def posStep (shl : ℕ → ℤ) (fuel : ℕ) (prec : ℤ) (up : ℕ → ℤ) (deg : ℕ) (rt : Ival) : SRes :=
  if rt.exact = true then .done up deg rt
  else refineOne shl fuel prec (1 + (1 + (bitSize rt.numer : ℤ) - rt.k)) up deg rt

/-- refine.c 914-932: the opposite interval. -/
def reflect (rt : Ival) : Ival :=
  if 0 < rt.k then ⟨-(rt.numer + 1), rt.k, rt.exact⟩ else ⟨-(rt.numer + 2 ^ (-rt.k).toNat), rt.k, rt.exact⟩

/-- refine.c 910-988: one turn of the loop over the negative roots; `up` is the polynomial at `-x`. -/
def negStep (shl : ℕ → ℤ) (fuel : ℕ) (prec : ℤ) (up : ℕ → ℤ) (deg : ℕ) (rt : Ival) : SRes :=
  if rt.exact = true then .done up deg (fixExact rt)
  else
    let p := reflect rt
    match refineOne shl fuel prec (1 + (bitSize p.numer : ℤ) - rt.k) up deg p with
    | .fuel => .fuel
    | .exit => .exit
    | .done up' deg' t =>
      if t.exact = true then .done up' deg' ⟨-t.numer, t.k, true⟩ else .done up' deg' ⟨-(t.numer + 1), t.k, false⟩

/-- The outcome for a list of roots. -/
inductive LRes where
  | fuel | exit
  | done (up : ℕ → ℤ) (deg : ℕ) (rts : List Ival)

/-- A loop over roots. -/
def loop (f : (ℕ → ℤ) → ℕ → Ival → SRes) : (ℕ → ℤ) → ℕ → List Ival → LRes
  | up, deg, [] => .done up deg []
  | up, deg, rt :: l =>
    match f up deg rt with
    | .fuel => .fuel
    | .exit => .exit
    | .done up' deg' rt' =>
      match loop f up' deg' l with
      | .fuel => .fuel
      | .exit => .exit
      | .done up'' deg'' l' => .done up'' deg'' (rt' :: l')

/-- refine.c 883-1052 (`refine_QIR_roots_adaptative`). -/
def adaptative (shl : ℕ → ℤ) (fuel : ℕ) (prec : ℤ) (up : ℕ → ℤ) (deg : ℕ) (roots : List Ival) (nbneg : ℕ) : LRes :=
  match removeExact up deg roots with
  | none => .exit
  | some (up1, deg1) =>
    match loop (negStep shl fuel prec) (altSign up1) deg1 (roots.take nbneg) with
    | .fuel => .fuel
    | .exit => .exit
    | .done up2 deg2 neg =>
      match loop (posStep shl fuel prec) (altSign up2) deg2 (roots.drop nbneg) with
      | .fuel => .fuel
      | .exit => .exit
      | .done up3 deg3 pos => .done up3 deg3 (neg ++ pos)

/-- usolve.c 1266-1340 (`real_roots`) with the default flags. -/
def realRoots (shl : ℕ → ℤ) (fuel : ℕ) (prec : ℤ) (up : ℕ → ℤ) (deg : ℕ) : URes :=
  match uspensky fuel up deg with
  | .fuel => .fuel
  | .exit => .exit
  | .hang => .hang
  | .done roots nbpos nbneg =>
    let roots := roots.map fixExact
    if 0 < nbpos + nbneg ∧ 0 ≤ prec then
      match adaptative shl fuel prec up deg roots nbneg with
      | .fuel => .fuel
      | .exit => .exit
      | .done _ _ rts => .done (rts.map fixExact) nbpos nbneg
    else .done (roots.map fixExact) nbpos nbneg

/-! ### one root -/

theorem icell_fixExact (rt : Ival) : (icell (fixExact rt)).lo = (icell rt).lo ∧ (fixExact rt).exact = rt.exact := by
  unfold fixExact
  split
  · rename_i h
    refine ⟨?_, rfl⟩
    unfold icell
    simp only
    rw [if_neg (by omega), if_neg (by omega)]
  · exact ⟨rfl, rfl⟩

theorem set_fixExact (rt : Ival) : (icell (fixExact rt)).set = (icell rt).set := by
  unfold fixExact
  split
  · rename_i h
    unfold Cell.set icell
    simp only
    rw [if_pos h.1, if_pos h.1, if_neg (by omega), if_neg (by omega)]
  · rfl

theorem fixExact_open {rt : Ival} (h : rt.exact = false) : fixExact rt = rt := by
  unfold fixExact; rw [if_neg (by simp [h])]

/-- Effect of a step on one record and on the polynomial that is left. -/
inductive Step (Q : ℝ[X]) (c : Cell) (Q' : ℝ[X]) (c' : Cell) : Prop
  | same (hc : c.exact = true) (hc' : c'.exact = true) (hlo : c'.lo = c.lo) (hQ : Q' = Q)
  | exact (hc : c.exact = false) (hc' : c'.exact = true) (hlo : c.lo < c'.lo) (hhi : c'.lo < c.hi)
      (hQ : Q = (X - C c'.lo) * Q')
  | smaller (hc : c.exact = false) (hc' : c'.exact = false) (hlo : c.lo ≤ c'.lo) (hlt : c'.lo < c'.hi) (hhi : c'.hi ≤ c.hi)
      (hQ : Q' = Q) (hs : Q.eval c'.lo * Q.eval c'.hi < 0)

theorem valuesAtBounds_spec (up : ℕ → ℤ) (deg : ℕ) (rt : Ival) :
    ∃ c : ℝ, 0 < c ∧ ((valuesAtBounds up deg rt.numer rt.k).1 : ℝ) = c * (rp up deg).eval (icell rt).lo ∧
      ((valuesAtBounds up deg rt.numer rt.k).2 : ℝ) = c * (rp up deg).eval (icell rt).hi := by
  obtain ⟨a, k, ex⟩ := rt
  unfold valuesAtBounds icell
  simp only
  by_cases hk : 0 < k
  · obtain ⟨m, rfl⟩ : ∃ m : ℕ, k = m := ⟨k.toNat, by omega⟩
    simp only [if_pos hk, Int.toNat_natCast, zpow_neg, zpow_natCast]
    refine ⟨2 ^ (m * deg), by positivity, ?_, ?_⟩
    · rw [eval2exp_rp, div_eq_mul_inv]
    · rw [eval2exp_rp]
      push_cast
      rw [add_div, div_eq_mul_inv, one_div]
  · obtain ⟨m, rfl⟩ : ∃ m : ℕ, k = -(m : ℤ) := ⟨(-k).toNat, by omega⟩
    simp only [if_neg hk, neg_neg, Int.toNat_natCast, zpow_zero, mul_one, zpow_natCast]
    refine ⟨1, one_pos, ?_, ?_⟩
    · rw [evalBasic_real, rp_eval, one_mul]
    · rw [evalBasic_real, rp_eval, one_mul]
      push_cast
      rw [add_comm]

theorem icell_lt (rt : Ival) : (icell rt).lo < (icell rt).hi := by
  unfold icell
  simp only
  have : (0 : ℝ) < 2 ^ (-rt.k) := by positivity
  linarith

theorem sign_ne_of_mul_neg {a b : ℤ} (h : (a : ℝ) * b < 0) : a.sign ≠ b.sign := by
  have h' : a * b < 0 := by exact_mod_cast h
  intro hs
  rcases lt_trichotomy a 0 with h1 | h1 | h1
  · have : b < 0 := by
      rw [← Int.sign_eq_neg_one_iff_neg, ← hs]; exact Int.sign_eq_neg_one_of_neg h1
    nlinarith
  · rw [h1] at h'; simp at h'
  · have : 0 < b := by
      rw [← Int.sign_eq_one_iff_pos, ← hs]; exact Int.sign_eq_one_of_pos h1
    nlinarith

theorem mul_neg_of_sign_ne {a b : ℤ} {x y : ℝ} (h : a.sign ≠ b.sign) (hx : 0 < (a : ℝ) * x) (hy : 0 < (b : ℝ) * y) :
    x * y < 0 := by
  have ha := ne_of_mul_pos hx
  have hb := ne_of_mul_pos hy
  have hab : a * b < 0 := by
    rcases lt_or_gt_of_ne ha with h1 | h1 <;> rcases lt_or_gt_of_ne hb with h2 | h2
    · exact absurd ((Int.sign_eq_neg_one_of_neg h1).trans (Int.sign_eq_neg_one_of_neg h2).symm) h
    · nlinarith
    · nlinarith
    · exact absurd ((Int.sign_eq_one_of_pos h1).trans (Int.sign_eq_one_of_pos h2).symm) h
  have hab' : (a : ℝ) * b < 0 := by exact_mod_cast hab
  nlinarith [mul_pos hx hy]

/-- The refinement of one interval. -/
theorem refineOne_spec (shl : ℕ → ℤ) (prec extra : ℤ) {up : ℕ → ℤ} {deg : ℕ} {rt : Ival} (hlead : up deg ≠ 0)
    (hex : rt.exact = false) (hsgn : (rp up deg).eval (icell rt).lo * (rp up deg).eval (icell rt).hi < 0) :
    ∃ K up' deg' rt', (∀ fuel ≥ K, refineOne shl fuel prec extra up deg rt = .done up' deg' rt') ∧ up' deg' ≠ 0 ∧
      (∃ u : ℝ, u ≠ 0 ∧ Step (rp up deg) (icell rt) (C u * rp up' deg') (icell rt')) ∧
      (rt'.exact = true ∨ prec ≤ rt'.k) := by
  obtain ⟨c, hc, h1, h2⟩ := valuesAtBounds_spec up deg rt
  have hdeg : 1 ≤ deg := by
    by_contra hd
    have hd0 : deg = 0 := by omega
    subst hd0
    have hcst : ∀ x, (rp up 0).eval x = up 0 := by
      intro x; rw [rp_eval, aeval_toPoly]; simp
    rw [hcst, hcst] at hsgn
    nlinarith [mul_self_nonneg (up 0 : ℝ)]
  unfold refineOne
  generalize valuesAtBounds up deg rt.numer rt.k = v at *
  simp only
  have hlo0 : (rp up deg).eval (icell rt).lo ≠ 0 := fun h => by rw [h, zero_mul] at hsgn; exact lt_irrefl _ hsgn
  have hhi0 : (rp up deg).eval (icell rt).hi ≠ 0 := fun h => by rw [h, mul_zero] at hsgn; exact lt_irrefl _ hsgn
  have hv1 : v.1 ≠ 0 := by
    intro h; rw [h, Int.cast_zero, eq_comm, mul_eq_zero] at h1; exact h1.elim hc.ne' hlo0
  have hv2 : v.2 ≠ 0 := by
    intro h; rw [h, Int.cast_zero, eq_comm, mul_eq_zero] at h2; exact h2.elim hc.ne' hhi0
  have hbr : Bracket ⟨up, deg, rt, v.1, v.2⟩ := by
    refine ⟨hex, real_sign hc h1 hv1, real_sign hc h2 hv2, sign_ne_of_mul_neg ?_⟩
    simp only
    rw [h1, h2]
    nlinarith [mul_pos hc hc]
  set target := prec + ((deg : ℤ) - 1) * max 0 extra / 32 with htarget
  have htp : prec ≤ target := by
    have : 0 ≤ ((deg : ℤ) - 1) * max 0 extra / 32 :=
      Int.ediv_nonneg (mul_nonneg (by omega) (le_max_left _ _)) (by norm_num)
    omega
  obtain ⟨K, t, hq, ho, hk⟩ := qir_spec shl target (max 0 (target - rt.k)).toNat 2
    ⟨up, deg, rt, v.1, v.2⟩ (by simp only; omega) ⟨0, rfl⟩ hlead hbr
  have hrun : ∀ fuel ≥ max 4 K, qir shl fuel target fuel 2 ⟨up, deg, rt, v.1, v.2⟩ = .done t :=
    fun fuel hf => hq fuel (le_trans (le_max_left _ _) hf) fuel (le_trans (le_max_right _ _) hf)
  cases ho with
  | exact hte htl htd htlo hthi hfac hts =>
    obtain ⟨u, hu, hfac⟩ := hfac
    refine ⟨max 4 K, t.up, t.deg, fixExact t.rt, fun fuel hf => ?_, htl, ⟨u, hu, Step.exact hex ?_ ?_ ?_ ?_⟩, Or.inl ?_⟩
    · rw [if_neg (not_or.mpr ⟨hv1, hv2⟩), hrun fuel hf]
      simp only [if_neg hts]
    · exact (icell_fixExact t.rt).2.trans hte
    · rw [(icell_fixExact t.rt).1]; exact htlo
    · rw [(icell_fixExact t.rt).1]; exact hthi
    · rw [(icell_fixExact t.rt).1]
      simp only at hfac
      rw [hfac]; ring
    · exact (icell_fixExact t.rt).2.trans hte
  | smaller hup htd hbt htlo hthi =>
    simp only at hup htd htlo hthi
    refine ⟨max 4 K, t.up, t.deg, fixExact t.rt, fun fuel hf => ?_, ?_, ⟨1, one_ne_zero, Step.smaller hex ?_ ?_ ?_ ?_ ?_ ?_⟩, ?_⟩
    · rw [if_neg (not_or.mpr ⟨hv1, hv2⟩), hrun fuel hf]
      simp only [if_neg hbt.opp]
    · rw [hup, htd]; exact hlead
    · exact (icell_fixExact t.rt).2.trans hbt.open'
    · rw [fixExact_open hbt.open']; exact htlo
    · rw [fixExact_open hbt.open']; exact icell_lt _
    · rw [fixExact_open hbt.open']; exact hthi
    · rw [hup, htd, C_1, one_mul]
    · rw [fixExact_open hbt.open', ← hup, ← htd]
      exact mul_neg_of_sign_ne hbt.opp hbt.lo hbt.hi
    · rw [fixExact_open hbt.open']
      rcases hk with hk | hk
      · exact Or.inl hk
      · exact Or.inr (htp.trans hk)

/-! ### all roots -/

/-- The invariant of the loops: the cells isolate the zeros of `P`, the polynomial `Q` is what is left of `P`
after the division by the exact roots and changes its sign on the open cells. -/
structure Inv (P Q : ℝ[X]) (L : List Cell) : Prop where
  iso : Isolates P Set.univ L
  fac : P = Q * exCells L
  lt : ∀ r ∈ L, r.exact = false → r.lo < r.hi
  sgn : ∀ r ∈ L, r.exact = false → Q.eval r.lo * Q.eval r.hi < 0

theorem isolates_shrink {P : ℝ[X]} {I : Set ℝ} {pre post : List Cell} {c c' : Cell}
    (h : Isolates P I (pre ++ c :: post)) (hsub : c'.set ⊆ c.set) (hz : ∃ x ∈ c'.set, P.eval x = 0) :
    Isolates P I (pre ++ c' :: post) := by
  obtain ⟨z, hz1, hz2⟩ := hz
  have hc : c ∈ pre ++ c :: post := by simp
  have hmem : ∀ r, r ∈ pre ++ c' :: post → r = c' ∨ r ∈ pre ++ c :: post := by
    intro r hr
    simp only [List.mem_append, List.mem_cons] at hr ⊢
    tauto
  obtain ⟨w, ⟨hw1, hw2⟩, hw3⟩ := h.unique c hc
  have hzw := hw3 z ⟨hsub hz1, hz2⟩
  refine ⟨fun r hr => ?_, fun r hr => ?_, fun x hx h0 => ?_, ?_⟩
  · rcases hmem r hr with rfl | hr
    · exact ⟨z, ⟨hz1, hz2⟩, fun y hy => by rw [hzw]; exact hw3 y ⟨hsub hy.1, hy.2⟩⟩
    · exact h.unique r hr
  · rcases hmem r hr with rfl | hr
    · exact hsub.trans (h.sub c hc)
    · exact h.sub r hr
  · obtain ⟨r, hr, hxr⟩ := h.cover x hx h0
    simp only [List.mem_append, List.mem_cons] at hr
    rcases hr with hr | rfl | hr
    · exact ⟨r, by simp [hr], hxr⟩
    · refine ⟨c', by simp, ?_⟩
      rw [hw3 x ⟨hxr, h0⟩, ← hzw]; exact hz1
    · exact ⟨r, by simp [hr], hxr⟩
  · have ho := h.order
    rw [List.pairwise_append, List.pairwise_cons] at ho ⊢
    obtain ⟨o1, ⟨o2, o3⟩, o4⟩ := ho
    refine ⟨o1, ⟨fun s hs x hx y hy => o2 s hs x (hsub hx) y hy, o3⟩, fun a ha b hb => ?_⟩
    rcases List.mem_cons.mp hb with rfl | hb
    · exact fun x hx y hy => o4 a ha c List.mem_cons_self x hx y (hsub hy)
    · exact o4 a ha b (List.mem_cons_of_mem _ hb)

theorem exCells_cons (c : Cell) (l : List Cell) : exCells (c :: l) = exFactor c * exCells l := by
  unfold exCells; rw [List.map_cons, List.prod_cons]

/-- A step preserves the invariant. -/
theorem inv_step {P Q Q' : ℝ[X]} {pre post : List Cell} {c c' : Cell} (h : Inv P Q (pre ++ c :: post))
    (hs : Step Q c Q' c') : Inv P Q' (pre ++ c' :: post) ∧ c'.set ⊆ c.set := by
  have hc : c ∈ pre ++ c :: post := by simp
  have hmem : ∀ r, r ∈ pre ++ c' :: post → r = c' ∨ r ∈ pre ++ c :: post := by
    intro r hr
    simp only [List.mem_append, List.mem_cons] at hr ⊢
    tauto
  have hPz : ∀ x, Q.eval x = 0 → P.eval x = 0 := by
    intro x hx; rw [h.fac, eval_mul, hx, zero_mul]
  cases hs with
  | same hce hce' hlo hQ =>
    have hset : c'.set = c.set := by unfold Cell.set; rw [if_pos hce, if_pos hce', hlo]
    obtain ⟨w, ⟨hw1, hw2⟩, _⟩ := h.iso.unique c hc
    refine ⟨⟨isolates_shrink h.iso hset.le ⟨w, by rw [hset]; exact hw1, hw2⟩, ?_, ?_, ?_⟩, hset.le⟩
    · rw [hQ, h.fac, exCells_append, exCells_append, exCells_cons, exCells_cons]
      have : exFactor c' = exFactor c := by unfold exFactor; rw [if_pos hce, if_pos hce', hlo]
      rw [this]
    · intro r hr hre
      rcases hmem r hr with rfl | hr
      · rw [hce'] at hre; cases hre
      · exact h.lt r hr hre
    · intro r hr hre
      rcases hmem r hr with rfl | hr
      · rw [hce'] at hre; cases hre
      · rw [hQ]; exact h.sgn r hr hre
  | smaller hce hce' hlo hlt hhi hQ hsg =>
    have hset : c'.set ⊆ c.set := by
      unfold Cell.set
      simp only [hce, hce', Bool.false_eq_true, if_false]
      exact Set.Ioo_subset_Ioo hlo hhi
    obtain ⟨x, hx1, hx2, hx3⟩ := exists_root_between Q hlt hsg
    refine ⟨⟨isolates_shrink h.iso hset ⟨x, ?_, hPz x hx3⟩, ?_, ?_, ?_⟩, hset⟩
    · unfold Cell.set; rw [if_neg (by simp [hce'])]; exact ⟨hx1, hx2⟩
    · rw [hQ, h.fac, exCells_append, exCells_append, exCells_cons, exCells_cons]
      have : exFactor c' = exFactor c := by unfold exFactor; simp [hce, hce']
      rw [this]
    · intro r hr hre
      rcases hmem r hr with rfl | hr
      · exact hlt
      · exact h.lt r hr hre
    · intro r hr hre
      rw [hQ]
      rcases hmem r hr with rfl | hr
      · exact hsg
      · exact h.sgn r hr hre
  | exact hce hce' hlo hhi hQ =>
    have hin : c'.lo ∈ c.set := by unfold Cell.set; rw [if_neg (by simp [hce])]; exact ⟨hlo, hhi⟩
    have hset : c'.set ⊆ c.set := by
      have : c'.set = {c'.lo} := by unfold Cell.set; rw [if_pos hce']
      rw [this]; exact Set.singleton_subset_iff.mpr hin
    refine ⟨⟨isolates_shrink h.iso hset ⟨c'.lo, ?_, hPz _ ?_⟩, ?_, ?_, ?_⟩, hset⟩
    · unfold Cell.set; rw [if_pos hce']; rfl
    · rw [hQ]; simp
    · rw [h.fac, hQ, exCells_append, exCells_append, exCells_cons, exCells_cons]
      have h1 : exFactor c' = X - C c'.lo := by unfold exFactor; rw [if_pos hce']
      have h2 : exFactor c = 1 := by unfold exFactor; rw [if_neg (by simp [hce])]
      rw [h1, h2]; ring
    · intro r hr hre
      rcases hmem r hr with rfl | hr
      · rw [hce'] at hre; cases hre
      · exact h.lt r hr hre
    · intro r hr hre
      have hne : ∀ s ∈ pre ++ post, s.exact = false → Q'.eval s.lo * Q'.eval s.hi < 0 := by
        intro s hs hse
        have hs' : s ∈ pre ++ c :: post := by
          simp only [List.mem_append, List.mem_cons] at hs ⊢; tauto
        have hlt := h.lt s hs' hse
        have hsg := h.sgn s hs' hse
        have hout : c'.lo ∉ s.set := by
          intro hcs
          have ho := h.iso.order
          rw [List.pairwise_append, List.pairwise_cons] at ho
          obtain ⟨_, ⟨o2, _⟩, o4⟩ := ho
          rcases List.mem_append.mp hs with hs | hs
          · exact lt_irrefl _ (o4 s hs c List.mem_cons_self _ hcs _ hin)
          · exact lt_irrefl _ (o2 s hs _ hin _ hcs)
        have hss : s.set = Set.Ioo s.lo s.hi := by unfold Cell.set; rw [if_neg (by simp [hse])]
        rw [hss, Set.mem_Ioo, not_and_or, not_lt, not_lt] at hout
        rw [hQ] at hsg
        simp only [eval_mul, eval_sub, eval_X, eval_C] at hsg
        have hpos : 0 ≤ (s.lo - c'.lo) * (s.hi - c'.lo) := by
          rcases hout with ho | ho
          · exact mul_nonneg (by linarith) (by linarith)
          · exact mul_nonneg_of_nonpos_of_nonpos (by linarith) (by linarith)
        by_contra hcon
        push Not at hcon
        have := mul_nonneg hpos hcon
        nlinarith
      simp only [List.mem_append, List.mem_cons] at hr
      rcases hr with hr | rfl | hr
      · exact hne r (by simp [hr]) hre
      · rw [hce'] at hre; cases hre
      · exact hne r (by simp [hr]) hre

theorem Step.smul {Q Q' : ℝ[X]} {c c' : Cell} {u : ℝ} (hu : u ≠ 0) (h : Step Q c Q' c') :
    Step (C u * Q) c (C u * Q') c' := by
  cases h with
  | same h1 h2 h3 h4 => exact Step.same h1 h2 h3 (by rw [h4])
  | exact h1 h2 h3 h4 h5 => exact Step.exact h1 h2 h3 h4 (by rw [h5]; ring)
  | smaller h1 h2 h3 h4 h5 h6 h7 =>
    refine Step.smaller h1 h2 h3 h4 h5 (by rw [h6]) ?_
    simp only [eval_mul, eval_C]
    nlinarith [mul_self_pos.mpr hu]

/-- The opposite of a cell. -/
def Opp (c d : Cell) : Prop :=
  d.exact = c.exact ∧ (c.exact = true → d.lo = -c.lo) ∧ (c.exact = false → d.lo = -c.hi ∧ d.hi = -c.lo)

theorem Step.neg {Q Q' : ℝ[X]} {c c' d d' : Cell} (hc : c.exact = false) (h : Step Q c Q' c') (h1 : Opp c d) (h2 : Opp c' d') :
    ∃ w : ℝ, w ≠ 0 ∧ Step (Q.comp (-X)) d (C w * Q'.comp (-X)) d' := by
  have hd := h1.2.2 hc
  have hde := h1.1.trans hc
  cases h with
  | same h1 => rw [h1] at hc; cases hc
  | exact _ h2' h3 h4 h5 =>
    have hd' := h2.2.1 h2'
    refine ⟨-1, by norm_num, Step.exact hde (h2.1.trans h2') (by rw [hd.1, hd']; linarith) (by rw [hd.2, hd']; linarith) ?_⟩
    rw [h5, hd', mul_comp, sub_comp, X_comp, C_comp, C_neg, C_neg, C_1]
    ring
  | smaller _ h2' h3 h4 h5 h6 h7 =>
    have hd' := h2.2.2 h2'
    refine ⟨1, one_ne_zero, Step.smaller hde (h2.1.trans h2') (by rw [hd.1, hd'.1]; linarith)
      (by rw [hd'.1, hd'.2]; linarith) (by rw [hd.2, hd'.2]; linarith) (by rw [h6, C_1, one_mul]) ?_⟩
    rw [hd'.1, hd'.2]
    simp only [eval_comp, eval_neg, eval_X, neg_neg]
    linarith

theorem opp_symm {c d : Cell} (h : Opp c d) : Opp d c := by
  obtain ⟨h1, h2, h3⟩ := h
  refine ⟨h1.symm, fun h => ?_, fun h => ?_⟩
  · rw [h2 (h1 ▸ h), neg_neg]
  · have := h3 (h1 ▸ h); rw [this.1, this.2, neg_neg, neg_neg]; exact ⟨rfl, rfl⟩

theorem opp_reflect {rt : Ival} (h : rt.exact = false) : Opp (icell rt) (icell (reflect rt)) := by
  obtain ⟨a, k, ex⟩ := rt
  simp only at h
  subst h
  unfold reflect icell
  by_cases hk : 0 < k
  · simp only [if_pos hk]
    refine ⟨rfl, fun h => absurd h (by simp), fun _ => ?_⟩
    simp only
    push_cast
    constructor <;> ring
  · simp only [if_neg hk, zpow_zero, mul_one]
    refine ⟨rfl, fun h => absurd h (by simp), fun _ => ?_⟩
    have : (2 : ℝ) ^ (-k) = 2 ^ (-k).toNat := by
      rw [← zpow_natCast]; congr 1; omega
    simp only
    push_cast
    rw [this]
    constructor <;> ring

/-- The record that is written back for a negative root. -/
theorem opp_back {t : Ival} (h : t.exact = true ∨ 0 ≤ t.k) :
    Opp (icell t) (icell (if t.exact = true then ⟨-t.numer, t.k, true⟩ else ⟨-(t.numer + 1), t.k, false⟩)) := by
  obtain ⟨a, k, ex⟩ := t
  cases ex with
  | true =>
    simp only [if_true]
    refine ⟨rfl, fun _ => ?_, fun h => absurd h (by simp [icell])⟩
    unfold icell; simp only; push_cast; ring
  | false =>
    simp only [Bool.false_eq_true, if_false, false_or] at h ⊢
    refine ⟨rfl, fun h => absurd h (by simp [icell]), fun _ => ?_⟩
    unfold icell; simp only
    have : (2 : ℝ) ^ (if 0 < k then -k else 0) = 2 ^ (-k) := by
      congr 1; split <;> omega
    rw [this]
    push_cast
    constructor <;> ring

/-- The array stands for `Q`. -/
def PosLink (up : ℕ → ℤ) (deg : ℕ) (Q : ℝ[X]) : Prop := up deg ≠ 0 ∧ ∃ u : ℝ, u ≠ 0 ∧ Q = C u * rp up deg

/-- The array stands for `Q(-x)`. -/
def NegLink (up : ℕ → ℤ) (deg : ℕ) (Q : ℝ[X]) : Prop := up deg ≠ 0 ∧ ∃ u : ℝ, u ≠ 0 ∧ Q = C u * (rp up deg).comp (-X)

/-- What the loops need to know about one turn. -/
def StepOK (f : ℕ → (ℕ → ℤ) → ℕ → Ival → SRes) (Lk : (ℕ → ℤ) → ℕ → ℝ[X] → Prop) (prec : ℤ) : Prop :=
  ∀ (up : ℕ → ℤ) (deg : ℕ) (rt : Ival) (Q : ℝ[X]), Lk up deg Q →
    (rt.exact = false → Q.eval (icell rt).lo * Q.eval (icell rt).hi < 0) →
    ∃ K up' deg' rt' Q', (∀ fuel ≥ K, f fuel up deg rt = .done up' deg' rt') ∧ Lk up' deg' Q' ∧
      Step Q (icell rt) Q' (icell rt') ∧ (rt'.exact = true ∨ prec ≤ rt'.k)

theorem posStep_ok (shl : ℕ → ℤ) (prec : ℤ) : StepOK (fun fuel => posStep shl fuel prec) PosLink prec := by
  rintro up deg rt Q ⟨hlead, u, hu, hQ⟩ hsgn
  unfold posStep
  by_cases hex : rt.exact = true
  · exact ⟨0, up, deg, rt, Q, fun fuel _ => by beta_reduce; rw [if_pos hex], ⟨hlead, u, hu, hQ⟩, Step.same hex hex rfl rfl, Or.inl hex⟩
  · have hexf : rt.exact = false := by simpa using hex
    have hs := hsgn hexf
    rw [hQ] at hs
    simp only [eval_mul, eval_C] at hs
    obtain ⟨K, up', deg', rt', hrun, hl', ⟨v, hv, hstep⟩, hk⟩ := refineOne_spec shl prec
      (1 + (1 + (bitSize rt.numer : ℤ) - rt.k)) hlead hexf (by
        by_contra hcon; push Not at hcon
        have := mul_nonneg (mul_self_nonneg u) hcon
        nlinarith)
    refine ⟨K, up', deg', rt', C u * (C v * rp up' deg'), fun fuel hf => by beta_reduce; rw [if_neg hex]; exact hrun fuel hf,
      ⟨hl', u * v, mul_ne_zero hu hv, by rw [C_mul]; ring⟩, ?_, hk⟩
    rw [hQ]; exact hstep.smul hu

theorem negStep_ok (shl : ℕ → ℤ) {prec : ℤ} (hprec : 0 ≤ prec) : StepOK (fun fuel => negStep shl fuel prec) NegLink prec := by
  rintro up deg rt Q ⟨hlead, u, hu, hQ⟩ hsgn
  unfold negStep
  by_cases hex : rt.exact = true
  · refine ⟨0, up, deg, fixExact rt, Q, fun fuel _ => by beta_reduce; rw [if_pos hex], ⟨hlead, u, hu, hQ⟩, ?_, Or.inl ?_⟩
    · exact Step.same hex ((icell_fixExact rt).2.trans hex) (icell_fixExact rt).1 rfl
    · exact (icell_fixExact rt).2.trans hex
  · have hexf : rt.exact = false := by simpa using hex
    have hs := hsgn hexf
    have hopp := opp_reflect hexf
    obtain ⟨hl, hh⟩ := hopp.2.2 hexf
    rw [hQ] at hs
    simp only [eval_mul, eval_C, eval_comp, eval_neg, eval_X] at hs
    rw [← hl, ← hh] at hs
    have hrex : (reflect rt).exact = false := hopp.1.trans hexf
    obtain ⟨K, up', deg', t, hrun, hl', ⟨v, hv, hstep⟩, hk⟩ := refineOne_spec shl prec
      (1 + (bitSize (reflect rt).numer : ℤ) - rt.k) hlead hrex (by
        by_contra hcon; push Not at hcon
        have := mul_nonneg (mul_self_nonneg u) hcon
        nlinarith)
    have hback := opp_back (t := t) (hk.imp id hprec.trans)
    obtain ⟨w, hw, hstep'⟩ := hstep.neg hrex (opp_symm hopp) hback
    refine ⟨K, up', deg', if t.exact = true then ⟨-t.numer, t.k, true⟩ else ⟨-(t.numer + 1), t.k, false⟩,
      C u * (C w * (C v * rp up' deg').comp (-X)), fun fuel hf => ?_,
      ⟨hl', u * w * v, mul_ne_zero (mul_ne_zero hu hw) hv, ?_⟩, ?_, ?_⟩
    · beta_reduce
      rw [if_neg hex]
      simp only [hrun fuel hf]
      split <;> rfl
    · rw [mul_comp, C_comp, C_mul, C_mul]; ring
    · rw [hQ]; exact hstep'.smul hu
    · rcases hk with hk | hk
      · left; rw [if_pos hk]
      · split
        · exact Or.inl rfl
        · exact Or.inr hk

/-- A loop over roots. -/
theorem loop_spec {f : ℕ → (ℕ → ℤ) → ℕ → Ival → SRes} {Lk : (ℕ → ℤ) → ℕ → ℝ[X] → Prop} {prec : ℤ} (hf : StepOK f Lk prec)
    {P : ℝ[X]} {post : List Cell} (l : List Ival) : ∀ (pre : List Cell) (up : ℕ → ℤ) (deg : ℕ) (Q : ℝ[X]), Lk up deg Q →
    Inv P Q (pre ++ (l.map icell ++ post)) →
    ∃ K up' deg' l' Q', (∀ fuel ≥ K, loop (f fuel) up deg l = .done up' deg' l') ∧ Lk up' deg' Q' ∧
      Inv P Q' (pre ++ (l'.map icell ++ post)) ∧ List.Forall₂ (fun r r' => (icell r').set ⊆ (icell r).set) l l' ∧
      ∀ r ∈ l', r.exact = true ∨ prec ≤ r.k := by
  induction l with
  | nil =>
    intro pre up deg Q hlk hinv
    exact ⟨0, up, deg, [], Q, fun _ _ => rfl, hlk, hinv, List.Forall₂.nil, by simp⟩
  | cons rt l ih =>
    intro pre up deg Q hlk hinv
    rw [List.map_cons, List.cons_append] at hinv
    obtain ⟨K1, up1, deg1, rt1, Q1, hrun1, hlk1, hstep, hk1⟩ := hf up deg rt Q hlk
      (fun hex => hinv.sgn (icell rt) (by simp) hex)
    obtain ⟨hinv1, hsub⟩ := inv_step hinv hstep
    obtain ⟨K2, up2, deg2, l2, Q2, hrun2, hlk2, hinv2, hsub2, hk2⟩ := ih (pre ++ [icell rt1]) up1 deg1 Q1 hlk1
      (by rw [List.append_assoc]; exact hinv1)
    refine ⟨max K1 K2, up2, deg2, rt1 :: l2, Q2, fun fuel hfu => ?_, hlk2, ?_, List.Forall₂.cons hsub hsub2, ?_⟩
    · rw [loop, hrun1 fuel (le_trans (le_max_left _ _) hfu)]
      simp only [hrun2 fuel (le_trans (le_max_right _ _) hfu)]
    · rw [List.map_cons, List.cons_append]
      rw [List.append_assoc] at hinv2
      exact hinv2
    · intro r hr
      rcases List.mem_cons.mp hr with rfl | hr
      · exact hk1
      · exact hk2 r hr

theorem removeExact_spec (l : List Ival) : ∀ (up : ℕ → ℤ) (deg : ℕ) (R : ℝ[X]), up deg ≠ 0 →
    rp up deg = R * exCells (l.map icell) →
    ∃ up1 deg1, removeExact up deg l = some (up1, deg1) ∧ PosLink up1 deg1 R := by
  induction l with
  | nil =>
    intro up deg R hlead hR
    refine ⟨up, deg, rfl, hlead, 1, one_ne_zero, ?_⟩
    rw [C_1, one_mul, hR]; simp [exCells]
  | cons rt l ih =>
    intro up deg R hlead hR
    rw [List.map_cons, exCells_cons] at hR
    rw [removeExact]
    by_cases hex : rt.exact = true
    · rw [if_pos hex]
      have hfac : exFactor (icell rt) = X - C (icell rt).lo := by
        unfold exFactor; rw [if_pos (show (icell rt).exact = true from hex)]
      have hlo : (icell rt).lo = (rt.numer : ℝ) / 2 ^ (if rt.k < 0 then 0 else rt.k.toNat) := by
        unfold icell
        simp only
        rcases lt_trichotomy rt.k 0 with h | h | h
        · rw [if_neg (by omega), if_pos h]; simp
        · rw [if_neg (by omega), if_neg (by omega), h]; simp
        · rw [if_pos h, if_neg (by omega), zpow_neg, div_eq_mul_inv, ← zpow_natCast, Int.toNat_of_nonneg h.le]
      have hz : (rp up deg).eval (icell rt).lo = 0 := by
        rw [hR, hfac]; simp
      set e := if rt.k < 0 then 0 else rt.k.toNat with he
      have hdeg : deg ≠ 0 := by
        rintro rfl
        rw [rp_eval, aeval_toPoly] at hz
        simp at hz
        exact hlead hz
      have hz' := hz
      rw [rp_eval, hlo] at hz'
      obtain ⟨q, c, hq, hqf⟩ := numerQuotient_spec (K := ℝ) hdeg hz'
      obtain ⟨hd, hqne⟩ := numerQuotient_ne hlead hq
      have hu : (2 : ℝ) ^ c / 2 ^ ((deg - 1) * e) ≠ 0 := by positivity
      set u : ℝ := 2 ^ c / 2 ^ ((deg - 1) * e) with hudef
      have hpf : rp up deg = (X - C (icell rt).lo) * (C u * rp q (deg - 1)) := by
        refine Polynomial.funext fun y => ?_
        have := hqf y
        simp only [eval_mul, eval_C, eval_sub, eval_X, rp_eval]
        rw [hlo, hudef, div_mul_eq_mul_div, mul_div_assoc', eq_div_iff (by positivity), mul_comm, this]
        ring
      have hcancel : C u * rp q (deg - 1) = R * exCells (l.map icell) := by
        have hne : (X - C (icell rt).lo : ℝ[X]) ≠ 0 := X_sub_C_ne_zero _
        refine mul_left_cancel₀ hne ?_
        rw [← hpf, hR, hfac]; ring
      obtain ⟨up1, deg1, hr, hl1, v, hv, hRv⟩ := ih q (deg - 1) (C u⁻¹ * R) hqne (by
        rw [mul_assoc, ← hcancel, ← mul_assoc, ← C_mul, inv_mul_cancel₀ hu, C_1, one_mul])
      refine ⟨up1, deg1, by rw [hq]; exact hr, hl1, u * v, mul_ne_zero hu hv, ?_⟩
      rw [C_mul, mul_assoc, ← hRv, ← mul_assoc, ← C_mul, mul_inv_cancel₀ hu, C_1, one_mul]
    · rw [if_neg hex]
      refine ih up deg R hlead ?_
      rw [hR]
      have : exFactor (icell rt) = 1 := by
        unfold exFactor; rw [if_neg (show ¬ (icell rt).exact = true from hex)]
      rw [this, one_mul]

/-- The invariant holds after the isolation. -/
theorem inv_of_sep {P : ℝ[X]} {L : List Ival} (hs : Simple P) (h : Sep P Set.univ (L.map icell)) :
    ∃ Q, Inv P Q (L.map icell) := by
  obtain ⟨Q, hfac, hends⟩ := h.ends
  have hlt : ∀ r ∈ L.map icell, r.lo < r.hi := by
    intro r hr
    obtain ⟨a, _, rfl⟩ := List.mem_map.mp hr
    exact icell_lt a
  refine ⟨Q, h.iso, hfac, fun r hr _ => hlt r hr, fun r hr hre => ?_⟩
  obtain ⟨z, ⟨hz1, hz2⟩, hz3⟩ := h.iso.unique r hr
  have hset : r.set = Set.Ioo r.lo r.hi := by unfold Cell.set; rw [if_neg (by simp [hre])]
  have hex : (exCells (L.map icell)).eval z ≠ 0 := by
    refine exCells_eval_ne fun s hs' hse => ?_
    have hss : s.lo ∈ s.set := by unfold Cell.set; rw [if_pos hse]; rfl
    obtain ⟨i, hi, rfl⟩ := List.getElem_of_mem hr
    obtain ⟨j, hj, rfl⟩ := List.getElem_of_mem hs'
    have ho := List.pairwise_iff_getElem.mp h.iso.order
    rcases lt_trichotomy i j with hij | hij | hij
    · exact (ho i j hi hj hij z hz1 _ hss).ne
    · subst hij; rw [hre] at hse; cases hse
    · exact (ho j i hj hi hij _ hss z hz1).ne'
  have hQz : Q.eval z = 0 := by
    rw [hfac, eval_mul] at hz2
    exact (mul_eq_zero.mp hz2).resolve_right hex
  rw [hset] at hz1
  have hQs : Simple Q := hs.of_dvd ⟨_, hfac⟩
  refine one_root_sign hQs hz1.1 hz1.2 hQz (hends r hr hre).1 (hends r hr hre).2 fun y y1 y2 y3 => ?_
  refine hz3 y ⟨?_, ?_⟩
  · rw [hset]; exact ⟨y1, y2⟩
  · rw [hfac, eval_mul, y3, zero_mul]

theorem sep_fixExact {P : ℝ[X]} {L : List Ival} (h : Sep P Set.univ (L.map icell)) :
    Sep P Set.univ ((L.map fixExact).map icell) := by
  have hmap : (L.map fixExact).map icell = L.map fun r => icell (fixExact r) := by rw [List.map_map]; rfl
  rw [hmap]
  have hf : ∀ r, exFactor (icell (fixExact r)) = exFactor (icell r) := by
    intro r
    unfold exFactor
    have h1 : (icell (fixExact r)).exact = (icell r).exact := (icell_fixExact r).2
    rw [h1, (icell_fixExact r).1]
  refine ⟨?_, ?_⟩
  · have := isolates_image (f := id) strictMono_id (g0 := icell) (g := fun r => icell (fixExact r)) (E := P)
      (fun r _ => by rw [set_fixExact, Set.image_id]) (fun x => Iff.rfl) h.iso
    rwa [Set.image_id] at this
  · obtain ⟨Q, hfac, hends⟩ := h.ends
    refine ⟨Q, ?_, fun r hr hre => ?_⟩
    · rw [hfac]
      unfold exCells
      rw [List.map_map, List.map_map]
      congr 2
      exact List.map_congr_left fun r _ => (hf r).symm
    · obtain ⟨a, ha, rfl⟩ := List.mem_map.mp hr
      have hae : a.exact = false := (icell_fixExact a).2.symm.trans hre
      rw [fixExact_open hae]
      exact hends (icell a) (List.mem_map.mpr ⟨a, ha, rfl⟩) hae

theorem rp_altSign (up : ℕ → ℤ) (deg : ℕ) : rp (altSign up) deg = (rp up deg).comp (-X) := rp_neg up deg

theorem altSign_ne {up : ℕ → ℤ} {deg : ℕ} (h : up deg ≠ 0) : altSign up deg ≠ 0 := by
  unfold altSign
  split
  · exact neg_ne_zero.mpr h
  · exact h

theorem comp_neg_neg (P : ℝ[X]) : (P.comp (-X)).comp (-X) = P := by
  rw [comp_assoc]; simp

/-- Refinement of all roots. -/
theorem adaptative_spec (shl : ℕ → ℤ) {prec : ℤ} (hprec : 0 ≤ prec) {up : ℕ → ℤ} {deg : ℕ} {L : List Ival} {nbneg : ℕ}
    (hlead : up deg ≠ 0) {Q : ℝ[X]} (hinv : Inv (rp up deg) Q (L.map icell)) :
    ∃ K up' deg' L', (∀ fuel ≥ K, adaptative shl fuel prec up deg L nbneg = .done up' deg' L') ∧
      Isolates (rp up deg) Set.univ (L'.map icell) ∧
      List.Forall₂ (fun r r' => (icell r').set ⊆ (icell r).set) L L' ∧ ∀ r ∈ L', r.exact = true ∨ prec ≤ r.k := by
  obtain ⟨up1, deg1, hrem, hl1, u, hu, hQ1⟩ := removeExact_spec L up deg Q hlead hinv.fac
  have hsplit : L.map icell = [] ++ ((L.take nbneg).map icell ++ (L.drop nbneg).map icell) := by
    rw [List.nil_append, ← List.map_append, List.take_append_drop]
  rw [hsplit] at hinv
  obtain ⟨K1, up2, deg2, neg, Q2, hrun2, ⟨hl2, u2, hu2, hQ2⟩, hinv2, hsub2, hk2⟩ := loop_spec (negStep_ok shl hprec)
    (L.take nbneg) [] (altSign up1) deg1 Q
    ⟨altSign_ne hl1, u, hu, by rw [rp_altSign, comp_neg_neg]; exact hQ1⟩ hinv
  rw [List.nil_append] at hinv2
  have hinv2' : Inv (rp up deg) Q2 (neg.map icell ++ ((L.drop nbneg).map icell ++ [])) := by
    rw [List.append_nil]; exact hinv2
  obtain ⟨K2, up3, deg3, pos, Q3, hrun3, _, hinv3, hsub3, hk3⟩ := loop_spec (posStep_ok shl prec)
    (L.drop nbneg) (neg.map icell) (altSign up2) deg2 Q2
    ⟨altSign_ne hl2, u2, hu2, by rw [rp_altSign]; exact hQ2⟩ hinv2'
  refine ⟨max K1 K2, up3, deg3, neg ++ pos, fun fuel hf => ?_, ?_, ?_, ?_⟩
  · unfold adaptative
    rw [hrem]
    simp only [hrun2 fuel (le_trans (le_max_left _ _) hf), hrun3 fuel (le_trans (le_max_right _ _) hf)]
  · have := hinv3.iso
    rw [List.append_nil] at this
    rw [List.map_append]; exact this
  · have := List.rel_append hsub2 hsub3
    beta_reduce at this
    rwa [List.take_append_drop] at this
  · intro r hr
    rcases List.mem_append.mp hr with hr | hr
    · exact hk2 r hr
    · exact hk3 r hr

theorem forall₂_right {A B : Type*} {R : A → B → Prop} {p : A → Prop} {q : B → Prop} {l : List A} {l' : List B}
    (h : List.Forall₂ R l l') (hp : ∀ a ∈ l, p a) (hq : ∀ a b, R a b → p a → q b) : ∀ b ∈ l', q b := by
  induction h with
  | nil => simp
  | cons hab _ ih =>
    intro b hb
    rcases List.mem_cons.mp hb with rfl | hb
    · exact hq _ _ hab (hp _ List.mem_cons_self)
    · exact ih (fun a ha => hp a (List.mem_cons_of_mem _ ha)) b hb

/-- The whole computation: the roots are isolated by intervals of the requested precision. -/
theorem realRoots_spec (shl : ℕ → ℤ) (prec : ℤ) {up : ℕ → ℤ} {deg : ℕ} (hd : 1 ≤ deg) (hlead : up deg ≠ 0)
    (hsimple : Simple (rp up deg)) :
    ∃ K roots nbpos nbneg, (∀ fuel ≥ K, realRoots shl fuel prec up deg = .done roots nbpos nbneg) ∧
      Isolates (rp up deg) Set.univ (roots.map icell) ∧ nbneg + nbpos = roots.length ∧
      (∀ r ∈ roots.take nbneg, (icell r).set ⊆ Set.Iio 0) ∧ (∀ r ∈ roots.drop nbneg, (icell r).set ⊆ Set.Ici 0) ∧
      (0 ≤ prec → ∀ r ∈ roots, r.exact = true ∨ prec ≤ r.k) ∧ ∀ r ∈ roots, r.exact = true → 0 ≤ r.k := by
  obtain ⟨K0, roots0, nbpos, nbneg, hrun0⟩ := uspensky_ok hd hlead hsimple
  obtain ⟨hsep, hlen, hneg, hpos⟩ := uspensky_spec hd hlead (hrun0 K0 le_rfl)
  have hsep1 := sep_fixExact hsep
  obtain ⟨Q, hinv⟩ := inv_of_sep hsimple hsep1
  have hfix0 : ∀ l : List Ival, ∀ r ∈ l.map fixExact, r.exact = true → 0 ≤ r.k := by
    intro l r hr hre
    obtain ⟨a, _, rfl⟩ := List.mem_map.mp hr
    unfold fixExact at hre ⊢
    split
    · exact le_rfl
    · rename_i h
      rw [if_neg h] at hre
      by_contra hk
      exact h ⟨hre, by omega⟩
  have hisofix : ∀ l : List Ival, Isolates (rp up deg) Set.univ (l.map icell) →
      Isolates (rp up deg) Set.univ ((l.map fixExact).map icell) := by
    intro l hl
    have hmap : (l.map fixExact).map icell = l.map fun r => icell (fixExact r) := by rw [List.map_map]; rfl
    rw [hmap]
    have := isolates_image (f := id) strictMono_id (g0 := icell) (g := fun r => icell (fixExact r)) (E := rp up deg)
      (fun r _ => by rw [set_fixExact, Set.image_id]) (fun x => Iff.rfl) hl
    rwa [Set.image_id] at this
  have hset : ∀ (l : List Ival) (I : Set ℝ), (∀ r ∈ l, (icell r).set ⊆ I) → ∀ r ∈ l.map fixExact, (icell r).set ⊆ I := by
    intro l I h r hr
    obtain ⟨a, ha, rfl⟩ := List.mem_map.mp hr
    rw [set_fixExact]; exact h a ha
  by_cases hgo : 0 < nbpos + nbneg ∧ 0 ≤ prec
  · obtain ⟨K1, up', deg', L', hrun1, hiso, hsub, hk⟩ := adaptative_spec shl hgo.2 (nbneg := nbneg) hlead hinv
    refine ⟨max K0 K1, L'.map fixExact, nbpos, nbneg, fun fuel hf => ?_, hisofix L' hiso, ?_, ?_, ?_, ?_, hfix0 L'⟩
    · unfold realRoots
      simp only [hrun0 fuel (le_trans (le_max_left _ _) hf), if_pos hgo, hrun1 fuel (le_trans (le_max_right _ _) hf)]
    · rw [List.length_map, ← hsub.length_eq, List.length_map]; exact hlen
    · rw [← List.map_take]
      refine hset _ _ (forall₂_right (List.forall₂_take nbneg hsub) (p := fun r => (icell r).set ⊆ Set.Iio 0) ?_
        fun a b hab ha => hab.trans ha)
      rw [← List.map_take]
      exact hset _ _ hneg
    · rw [← List.map_drop]
      refine hset _ _ (forall₂_right (List.forall₂_drop nbneg hsub) (p := fun r => (icell r).set ⊆ Set.Ici 0) ?_
        fun a b hab ha => hab.trans ha)
      rw [← List.map_drop]
      exact hset _ _ hpos
    · intro _ r hr
      obtain ⟨a, ha, rfl⟩ := List.mem_map.mp hr
      cases hae : a.exact with
      | true => left; rw [(icell_fixExact a).2, hae]
      | false =>
        rw [fixExact_open hae]
        exact hk a ha
  · refine ⟨K0, (roots0.map fixExact).map fixExact, nbpos, nbneg, fun fuel hf => ?_, hisofix _ hsep1.iso, ?_, ?_, ?_, ?_, hfix0 _⟩
    · unfold realRoots
      simp only [hrun0 fuel hf, if_neg hgo]
    · rw [List.length_map, List.length_map]; exact hlen
    · rw [← List.map_take, ← List.map_take]; exact hset _ _ (hset _ _ hneg)
    · rw [← List.map_drop, ← List.map_drop]; exact hset _ _ (hset _ _ hpos)
    · intro hp r hr
      have : roots0.length = 0 := by
        rw [← hlen]
        by_contra hne
        exact hgo ⟨by omega, hp⟩
      rw [List.length_eq_zero_iff] at this
      rw [this] at hr; simp at hr

/-- The number of records is at most the degree. -/
theorem isolates_length {P : ℝ[X]} {I : Set ℝ} {L : List Cell} (hP : P ≠ 0) (h : Isolates P I L) : L.length ≤ P.natDegree := by
  choose! z hz1 hz2 using fun r (hr : r ∈ L) => (h.unique r hr).exists
  have hnd : (L.map z).Nodup := by
    rw [List.Nodup, List.pairwise_map]
    refine h.order.imp_of_mem ?_
    intro a b ha hb hab
    exact (hab _ (hz1 a ha) _ (hz1 b hb)).ne
  have hsub : (L.map z).toFinset ⊆ P.roots.toFinset := by
    intro x hx
    rw [List.mem_toFinset] at hx
    obtain ⟨r, hr, rfl⟩ := List.mem_map.mp hx
    rw [Multiset.mem_toFinset, mem_roots hP]
    exact hz2 r hr
  calc L.length = (L.map z).toFinset.card := by rw [List.toFinset_card_of_nodup hnd, List.length_map]
    _ ≤ P.roots.toFinset.card := Finset.card_le_card hsub
    _ ≤ Multiset.card P.roots := Multiset.toFinset_card_le _
    _ ≤ P.natDegree := card_roots' P

/-- The number of cells is the number of roots. -/
theorem isolates_card {P : ℝ[X]} {L : List Cell} (h : Isolates P Set.univ L) :
    L.length = {x : ℝ | P.eval x = 0}.ncard := by
  choose! z hz1 hz2 using fun r (hr : r ∈ L) => (h.unique r hr).exists
  have hnd : (L.map z).Nodup := by
    rw [List.Nodup, List.pairwise_map]
    refine h.order.imp_of_mem ?_
    intro a b ha hb hab
    exact (hab _ (hz1 a ha) _ (hz1 b hb)).ne
  have hset : {x : ℝ | P.eval x = 0} = ((L.map z).toFinset : Set ℝ) := by
    ext x
    rw [Finset.mem_coe, List.mem_toFinset, List.mem_map]
    refine ⟨fun hx => ?_, ?_⟩
    · obtain ⟨r, hr, hxr⟩ := h.cover x (Set.mem_univ x) hx
      exact ⟨r, hr, (h.unique r hr).unique ⟨hz1 r hr, hz2 r hr⟩ ⟨hxr, hx⟩⟩
    · rintro ⟨r, hr, rfl⟩
      exact hz2 r hr
  rw [hset, Set.ncard_coe_finset, List.toFinset_card_of_nodup hnd, List.length_map]

end Verif.URefine
