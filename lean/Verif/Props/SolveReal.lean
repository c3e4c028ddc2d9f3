import Verif.Props.SolveQ
import Verif.Props.RealPoint
import Verif.RealUniform
import Verif.Spec.RealSolutions

/-!
C81: the printed boxes of the real solutions, from the input file to the printed text.
-/
namespace Verif.Props
namespace SolveReal

open Verif.F4 Verif.Spec Verif.VarOrder Verif.Output Verif.SolveQ Verif.RealPoints Verif.UPoly Verif.Isolate Verif.URefine Verif.UIsolate
open Verif.ParamLift (PSt)
open Verif.Parse (qqPoly)
open Verif.Props.EndToEndQq (InputOkQ)
open Verif.Props.SolveQ
open Verif.Spec.Text (File idealQ Variant GoodPrime scaled)
open Verif.Spec.Solutions
open Verif.Spec.Output (readOutput Tree points)
open Verif.Props.Solve (Rel)
open MvPolynomial

/-! ### Zeros and their images -/

theorem rel_inj {K : Type*} [Field K] {n n' : ℕ} {I : Ideal (MvPolynomial (Fin n) K)} {I' : Ideal (MvPolynomial (Fin n') K)} {τ : Fin n → Fin n'}
    (h : Rel I I' τ) {L : Type*} [Field L] [Algebra K L] {z1 z2 : Fin n' → L} (h1 : ∀ f ∈ I', aeval z1 f = 0) (h2 : ∀ f ∈ I', aeval z2 f = 0)
    (he : ∀ i, z1 (τ i) = z2 (τ i)) : z1 = z2 := by
  obtain ⟨e, hee⟩ := h
  set a1 : (MvPolynomial (Fin n') K ⧸ I') →ₐ[K] L := Ideal.Quotient.liftₐ I' (aeval z1) h1 with ha1
  set a2 : (MvPolynomial (Fin n') K ⧸ I') →ₐ[K] L := Ideal.Quotient.liftₐ I' (aeval z2) h2 with ha2
  have v1 : ∀ j, a1 (Ideal.Quotient.mk I' (X j)) = z1 j := fun j => aeval_X z1 j
  have v2 : ∀ j, a2 (Ideal.Quotient.mk I' (X j)) = z2 j := fun j => aeval_X z2 j
  have key : a1.comp e.toAlgHom = a2.comp e.toAlgHom := by
    apply Ideal.Quotient.algHom_ext
    apply MvPolynomial.algHom_ext
    intro i
    change a1 (e (Ideal.Quotient.mk I (X i))) = a2 (e (Ideal.Quotient.mk I (X i)))
    rw [hee, v1, v2, he]
  have : a1 = a2 := by
    apply AlgHom.ext
    intro q
    have := DFunLike.congr_fun key (e.symm q)
    change a1 (e (e.symm q)) = a2 (e (e.symm q)) at this
    rwa [AlgEquiv.apply_symm_apply] at this
  funext j
  rw [← v1, ← v2, this]

/-! ### Values -/

theorem value_lval (c : ℕ → ℤ) (n : ℕ) (x : ℝ) : value ((List.range n).map c) x = lval c n x := by
  have key : ∀ (c : ℕ → ℤ) (n : ℕ), value ((List.range n).map c) x = lval c n x := by
    intro c n
    induction n generalizing c with
    | zero => rfl
    | succ n ih =>
      have := ih fun i => c (i + 1)
      rw [List.range_succ_eq_map, List.map_cons, List.map_map]
      unfold value lval at this ⊢
      rw [List.foldr_cons, Finset.sum_range_succ', pow_zero, mul_one, add_comm]
      have e : c ∘ Nat.succ = fun i => c (i + 1) := rfl
      rw [e, this, Finset.mul_sum]
      congr 1
      exact Finset.sum_congr rfl fun i _ => by ring
  exact key c n

theorem lval_rp (c : ℕ → ℤ) (d : ℕ) (x : ℝ) : (rp c d).eval x = lval c (d + 1) x := by
  unfold rp lval toPoly
  simp [Polynomial.eval_finsetSum, Polynomial.map_sum]

theorem getD_range (c : ℕ → ℤ) {n i : ℕ} (h : i < n) : ((List.range n).map c).getD i 0 = c i := by
  rw [List.getD_eq_getElem?_getD, List.getElem?_map, List.getElem?_range h]
  rfl

/-! ### Lists -/

theorem choose_list {α β : Type*} {R : α → β → Prop} : ∀ {l : List α}, (∀ a ∈ l, ∃ b, R a b) → ∃ l', List.Forall₂ R l l'
  | [], _ => ⟨[], .nil⟩
  | a :: l, h => by
    obtain ⟨b, hb⟩ := h a List.mem_cons_self
    obtain ⟨l', hl'⟩ := choose_list fun a ha => h a (List.mem_cons_of_mem _ ha)
    exact ⟨b :: l', .cons hb hl'⟩

theorem forall₂_mem {α β : Type*} {R : α → β → Prop} {l : List α} {l' : List β} (h : List.Forall₂ R l l') :
    (∀ a ∈ l, ∃ b ∈ l', R a b) ∧ ∀ b ∈ l', ∃ a ∈ l, R a b := by
  induction h with
  | nil => simp
  | cons h _ ih =>
    refine ⟨fun a ha => ?_, fun b hb => ?_⟩
    · rcases List.mem_cons.mp ha with rfl | ha
      · exact ⟨_, List.mem_cons_self, h⟩
      · obtain ⟨b, hb, hr⟩ := ih.1 a ha
        exact ⟨b, List.mem_cons_of_mem _ hb, hr⟩
    · rcases List.mem_cons.mp hb with rfl | hb
      · exact ⟨_, List.mem_cons_self, h⟩
      · obtain ⟨a, ha, hr⟩ := ih.2 b hb
        exact ⟨a, List.mem_cons_of_mem _ ha, hr⟩

theorem forall₂_pairwise {α β : Type*} {R : α → β → Prop} {S : α → α → Prop} {T : β → β → Prop} (hT : ∀ {a a' b b'}, R a b → R a' b' → S a a' → T b b') {l : List α}
    {l' : List β} (h : List.Forall₂ R l l') (hp : l.Pairwise S) : l'.Pairwise T := by
  induction h with
  | nil => exact .nil
  | cons h ht ih =>
    obtain ⟨h1, h2⟩ := List.pairwise_cons.mp hp
    refine List.pairwise_cons.mpr ⟨fun b hb => ?_, ih h2⟩
    obtain ⟨a, ha, hr⟩ := (forall₂_mem ht).2 b hb
    exact hT h hr (h1 a ha)

/-! ### The printed coordinates -/

/-- The order of the variables in the printed boxes. -/
def boxOrder (gp : ℕ) (names pnames : List (List Char)) : List (List Char) := if gp = 0 then names else pnames.take names.length

theorem shown_spec {names : List (List Char)} {g : Gens} {τ : Fin names.length → Fin g.nvars} (hst : StateOk names g τ) (gp : ℕ) {α : Type} {l : List α}
    (hl : l.length = g.nvars) : (shown gp g l).length = names.length ∧
      ∀ i, ∃ k : ℕ, (boxOrder gp names (g.vnames.map String.toList))[k]? = some names[i] ∧ (shown gp g l)[k]? = l[(τ i).val]? := by
  unfold shown boxOrder
  have hname : ∀ i, (g.vnames.map String.toList)[(τ i).val]? = some names[i] := by
    intro i
    rw [List.getElem?_map, hst.name]
    simp
  by_cases h0 : gp = 0
  · rw [if_pos h0, if_pos h0]
    obtain ⟨h1, h2⟩ := hst.back l hl
    refine ⟨h1, fun i => ⟨i.val, ?_, h2 i⟩⟩
    simp
  · rw [if_neg h0, if_neg h0]
    by_cases h1 : 0 < g.lfbc
    · obtain ⟨h2, h3⟩ := hst.form h1
      rw [if_pos h1]
      refine ⟨by rw [List.length_take]; omega, fun i => ⟨(τ i).val, ?_, ?_⟩⟩
      · rw [List.getElem?_take, if_pos (by rw [h3]; exact i.2), hname]
      · rw [List.getElem?_take, if_pos (by rw [h3]; have := i.2; omega)]
    · have h2 := hst.plain (by omega)
      rw [if_neg h1]
      refine ⟨by omega, fun i => ⟨(τ i).val, ?_, rfl⟩⟩
      rw [List.getElem?_take, if_pos (by have := (τ i).2; omega), hname]

/-! ### The boxes -/

section
variable {names : List (List Char)} {g : Gens} {τ : Fin names.length → Fin g.nvars} {I : Ideal (MvPolynomial (Fin names.length) ℚ)}
  {I' : Ideal (MvPolynomial (Fin g.nvars) ℚ)} {ps : List ℕ} {d : ℕ} {m : PSt} {last : Fin g.nvars} {w : Polynomial ℚ} {c : Fin g.nvars → Polynomial ℚ}

theorem good_param (hd : 0 < d) (hwd : w.natDegree = d) (hsep : w.Separable)
    (hL : LiftOf ps w (fun k => if hk : k < g.nvars then c ⟨k, hk⟩ else 0) (g.nvars - 1) (paramData g.nvars d m).elim (paramData g.nvars d m).denom
      ((paramData g.nvars d m).coords.getD [])) (he : ∀ i, i ≤ w.natDegree → elimErr w (paramData g.nvars d m).elim i = 0) :
    RealPoints.Good (paramOf g.nvars d m) ∧ m.E d ≠ 0 ∧ ∀ i, i ≤ d → ((m.E i : ℤ) : ℚ) = m.E d * w.coeff i := by
  have hE : ∀ i, i ≤ d → (paramData g.nvars d m).elim.getD i 0 = m.E i := fun i hi => getD_range m.E (by omega)
  have hlead : m.E d ≠ 0 := by
    have := hL.lead
    rwa [hwd, hE d le_rfl] at this
  have hcoef : ∀ i, i ≤ d → ((m.E i : ℤ) : ℚ) = m.E d * w.coeff i := by
    intro i hi
    have := he i (by omega)
    unfold elimErr at this
    rw [hwd, hE i hi, hE d le_rfl] at this
    have h2 : ((m.E i : ℤ) : ℚ) * (w.coeff i).den = m.E d * (w.coeff i).num := by exact_mod_cast sub_eq_zero.mp this
    rw [← mul_right_cancel_iff_of_pos (show (0 : ℚ) < (w.coeff i).den by exact_mod_cast (w.coeff i).den_pos), h2, mul_assoc, Rat.mul_den_eq_num]
  have hmap : (toPoly m.E d).map (Int.castRingHom ℚ) = Polynomial.C (m.E d : ℚ) * w := by
    ext i
    rw [Polynomial.coeff_map, Polynomial.coeff_C_mul, eq_intCast]
    unfold toPoly
    rw [Polynomial.finsetSum_coeff]
    simp only [Polynomial.coeff_C_mul, Polynomial.coeff_X_pow, mul_ite, mul_one, mul_zero]
    by_cases hi : i ≤ d
    · rw [Finset.sum_ite_eq, if_pos (Finset.mem_range.mpr (by omega)), hcoef i hi]
    · rw [Finset.sum_ite_eq, if_neg (fun h => by rw [Finset.mem_range] at h; omega), Polynomial.coeff_eq_zero_of_natDegree_lt (by omega)]
      simp
  refine ⟨C54_good hd hlead ?_ rfl ?_ ?_ ?_, hlead, hcoef⟩
  · show Squarefree ((toPoly m.E d).map (Int.castRingHom ℚ))
    rw [hmap]
    have hu : IsUnit (Polynomial.C (m.E d : ℚ)) := Polynomial.isUnit_C.mpr (isUnit_iff_ne_zero.mpr (by exact_mod_cast hlead))
    exact (hsep.squarefree).squarefree_of_dvd ((hu.mul_left_dvd).mpr dvd_rfl)
  · intro i _
    rfl
  · intro q hq
    obtain ⟨k, -, rfl⟩ := List.mem_map.mp hq
    exact le_rfl
  · intro q hq
    obtain ⟨k, hk, rfl⟩ := List.mem_map.mp hq
    exact (hL.pos ((List.range d).map (m.C k), m.cf k) (List.mem_map.mpr ⟨k, hk, rfl⟩)).2

/-- The point of the parametrization, with all coordinates. -/
noncomputable def zOf (g : Gens) (d : ℕ) (m : PSt) (x : ℝ) (j : Fin g.nvars) : ℝ := (point (paramOf g.nvars d m) x).getD j 0

theorem point_get (hpos : 1 ≤ g.nvars) (x : ℝ) (j : Fin g.nvars) : (point (paramOf g.nvars d m) x)[j.val]? = some (zOf g d m x j) := by
  have hlen : (point (paramOf g.nvars d m) x).length = g.nvars := by
    simp [point, paramOf]
    omega
  unfold zOf
  rw [List.getD_eq_getElem?_getD, List.getElem?_eq_getElem (by rw [hlen]; exact j.2)]
  rfl

theorem zOf_last (hpos : 1 ≤ g.nvars) (hl : last.val = g.nvars - 1) (x : ℝ) : zOf g d m x last = x := by
  unfold zOf point
  rw [List.getD_eq_getElem?_getD, List.getElem?_append_right (by simp [paramOf]; omega)]
  simp [paramOf, hl]

theorem zOf_other (hl : last.val = g.nvars - 1) (x : ℝ) {k : Fin g.nvars} (hk : k ≠ last) :
    zOf g d m x k = - lval (m.C k) d x / (lval (ParamLift.denom m) d x * m.cf k) := by
  have hk' : k.val < g.nvars - 1 := by
    have := k.2
    have : k.val ≠ last.val := fun h => hk (Fin.ext h)
    omega
  unfold zOf point
  rw [List.getD_eq_getElem?_getD, List.getElem?_append_left (by simp [paramOf]; omega)]
  simp [paramOf, coordVal, List.getElem?_range hk']

/-- The zeros of the ideal are the points of the parametrization. -/
theorem zeros_iff (hpos : 1 ≤ g.nvars) (hd : 0 < d) (hl : last.val = g.nvars - 1) (hS : Shape I' last w c) (hsep : w.Separable) (hwd : w.natDegree = d)
    (hL : LiftOf ps w (fun k => if hk : k < g.nvars then c ⟨k, hk⟩ else 0) (g.nvars - 1) (paramData g.nvars d m).elim (paramData g.nvars d m).denom
      ((paramData g.nvars d m).coords.getD [])) (he : ∀ i, i ≤ w.natDegree → elimErr w (paramData g.nvars d m).elim i = 0)
    (hc : ∀ k, k ≠ last → ∀ j, j < w.natDegree → coordErr w (c k) (paramData g.nvars d m).elim (((paramData g.nvars d m).coords.getD []).getD k ([], 1)) j = 0)
    (z : Fin g.nvars → ℝ) : (∀ f ∈ I', aeval z f = 0) ↔ ∃ x, (rp m.E d).eval x = 0 ∧ z = zOf g d m x := by
  obtain ⟨hG, -, -⟩ := good_param hd hwd hsep hL he
  have h1 := lift_points (L := ℝ) hl hS hsep (by omega) hL he hc z
  have hev : ∀ x : ℝ, value (paramData g.nvars d m).elim x = (rp m.E d).eval x := fun x => by rw [lval_rp]; exact value_lval _ _ x
  have hdv : ∀ x : ℝ, value (paramData g.nvars d m).denom x = lval (ParamLift.denom m) d x := fun x => value_lval _ _ x
  have hco : ∀ k : Fin g.nvars, k ≠ last → ((paramData g.nvars d m).coords.getD []).getD k ([], 1) = ((List.range d).map (m.C k), m.cf k) := by
    intro k hk
    have hk' : k.val < g.nvars - 1 := by
      have := k.2
      have : k.val ≠ last.val := fun h => hk (Fin.ext h)
      omega
    show ((List.range (g.nvars - 1)).map _).getD _ _ = _
    rw [List.getD_eq_getElem?_getD, List.getElem?_map, List.getElem?_range hk']
    rfl
  rw [h1]
  constructor
  · rintro ⟨h2, h3, h4⟩
    rw [hev] at h2
    refine ⟨z last, h2, ?_⟩
    funext k
    by_cases hk : k = last
    · rw [hk, zOf_last hpos hl]
    · rw [h4 k hk, hco k hk, zOf_other hl _ hk, hdv, value_lval, mul_comm]
  · rintro ⟨x, hx, rfl⟩
    have hxl := zOf_last (d := d) (m := m) hpos hl x
    rw [hxl]
    refine ⟨by rw [hev, hx], ?_, fun k hk => ?_⟩
    · rw [hdv]
      exact lval_denom_ne hG hx
    · rw [hco k hk, zOf_other hl _ hk, hdv, value_lval, mul_comm]

theorem encloses_get {bs : List Box} {ys : List ℝ} (h : Encloses bs ys) {i : ℕ} {y : ℝ} (hy : ys[i]? = some y) : ∃ b, bs[i]? = some b ∧ b.has y := by
  obtain ⟨h1, h2⟩ := List.forall₂_iff_get.mp h
  obtain ⟨hi, rfl⟩ := List.getElem?_eq_some_iff.mp hy
  exact ⟨bs[i], List.getElem?_eq_getElem (by omega), h2 i (by omega) hi⟩

/-- The boxes and the real zeros. -/
theorem real_core (hst : StateOk names g τ) (hrel : Rel I I' τ) (hd : 0 < d) (hl : last.val = g.nvars - 1) (hS : Shape I' last w c) (hsep : w.Separable)
    (hwd : w.natDegree = d)
    (hL : LiftOf ps w (fun k => if hk : k < g.nvars then c ⟨k, hk⟩ else 0) (g.nvars - 1) (paramData g.nvars d m).elim (paramData g.nvars d m).denom
      ((paramData g.nvars d m).coords.getD [])) (he : ∀ i, i ≤ w.natDegree → elimErr w (paramData g.nvars d m).elim i = 0)
    (hc : ∀ k, k ≠ last → ∀ j, j < w.natDegree → coordErr w (c k) (paramData g.nvars d m).elim (((paramData g.nvars d m).coords.getD []).getD k ([], 1)) j = 0)
    {prec gp : ℕ} (hap : RootsApart (paramData g.nvars d m).elim (max prec 128)) (shl : ℕ → ℤ) :
    ∃ (K : ℕ) (raw : List (List Box)) (sols : List (Fin names.length → ℝ)),
      (∀ fuel ≥ K, isolateParam shl fuel (paramOf g.nvars d m) prec = .done raw) ∧ RealZeros I sols ∧ (boundsOf (raw.map (shown gp g))).length = sols.length ∧
      ((∀ x, (rp m.E d).eval x = 0 → ∀ k ≥ max prec 128, ∀ r : ℤ, (r : ℝ) ≤ 2 ^ k * x → 2 ^ k * x ≤ r + 1 → Safe (paramOf g.nvars d m) x r k) →
        List.Forall₂ (InBox names (boxOrder gp names (g.vnames.map String.toList))) (boundsOf (raw.map (shown gp g))) sols) := by
  obtain ⟨hG, -, -⟩ := good_param hd hwd hsep hL he
  have hz := zeros_iff hst.pos hd hl hS hsep hwd hL he hc
  have hev : ∀ x : ℝ, value (paramData g.nvars d m).elim x = (rp m.E d).eval x := fun x => by rw [lval_rp]; exact value_lval _ _ x
  have hiso : max prec 128 ≤ isoPrec (paramOf g.nvars d m) prec := by
    unfold isoPrec
    exact max_le_max le_rfl (Nat.le_add_right _ _)
  have hap' : Apart (rp (paramOf g.nvars d m).elim (paramOf g.nvars d m).nsols) (isoPrec (paramOf g.nvars d m) prec) := by
    intro x y hx hy hne
    refine le_trans ?_ (hap x y ((hev x).trans hx) ((hev y).trans hy) hne)
    exact one_div_le_one_div_of_le (by positivity) (pow_le_pow_right₀ (by norm_num) hiso)
  obtain ⟨K, raw, h1, h2, h3⟩ := isolateParam_spec shl hG prec hap'
  obtain ⟨xs, hxs⟩ := choose_list (R := fun bs x => bs.length = g.nvars ∧ (rp m.E d).eval x = 0 ∧ x ∈ (lastCell bs).set ∧
      ((∀ k ≥ max prec 128, ∀ r : ℤ, (r : ℝ) ≤ 2 ^ k * x → 2 ^ k * x ≤ r + 1 → Safe (paramOf g.nvars d m) x r k) → Encloses bs (point (paramOf g.nvars d m) x)))
    (l := raw) (by
      intro bs hbs
      obtain ⟨h4, x, h5, h6, h7⟩ := h3 bs hbs
      refine ⟨x, ?_, h5, h6, fun hs => h7 fun k hk => hs k (le_trans hiso hk)⟩
      rw [h4]
      have := hst.pos
      simp [paramOf]
      omega)
  have hmem : ∀ x, x ∈ xs ↔ (rp m.E d).eval x = 0 := by
    intro x
    constructor
    · intro hx
      obtain ⟨bs, -, hr⟩ := (forall₂_mem hxs).2 x hx
      exact hr.2.1
    · intro hx
      obtain ⟨r, hr, hxr⟩ := h2.cover x (Set.mem_univ x) hx
      obtain ⟨bs, hbs, rfl⟩ := List.mem_map.mp hr
      obtain ⟨y, hy, hR⟩ := (forall₂_mem hxs).1 bs hbs
      obtain ⟨u, -, hu⟩ := h2.unique _ (List.mem_map_of_mem hbs)
      rwa [hu x ⟨hxr, hx⟩, ← hu y ⟨hR.2.2.1, hR.2.1⟩]
  have hnd : xs.Nodup := by
    have := forall₂_pairwise (T := fun x y => x < y) (fun hr hr' hS => hS _ hr.2.2.1 _ hr'.2.2.1) hxs (List.pairwise_map.mp h2.order)
    exact this.imp fun h => h.ne
  refine ⟨K, raw, xs.map fun x i => zOf g d m x (τ i), h1, ⟨?_, fun z => ?_⟩, ?_, fun hsafe => ?_⟩
  · refine List.Nodup.map_on (fun x hx y hy hxy => ?_) hnd
    have hx' := (hmem x).mp hx
    have hy' := (hmem y).mp hy
    have := rel_inj hrel ((hz _).mpr ⟨x, hx', rfl⟩) ((hz _).mpr ⟨y, hy', rfl⟩) (fun i => congrFun hxy i)
    have := congrFun this last
    rwa [zOf_last hst.pos hl, zOf_last hst.pos hl] at this
  · rw [hrel.zeros, List.mem_map]
    constructor
    · rintro ⟨x, hx, rfl⟩
      exact ⟨zOf g d m x, (hz _).mpr ⟨x, (hmem x).mp hx, rfl⟩, fun i => rfl⟩
    · rintro ⟨z', hz', hzz⟩
      obtain ⟨x, hx, rfl⟩ := (hz z').mp hz'
      exact ⟨x, (hmem x).mpr hx, funext fun i => (hzz i).symm⟩
  · unfold boundsOf
    rw [List.length_map, List.length_map, List.length_map, hxs.length_eq]
  · unfold boundsOf
    rw [List.map_map, List.forall₂_map_left_iff, List.forall₂_map_right_iff]
    refine hxs.imp fun bs x ⟨h4, h5, h6, h7⟩ => ?_
    obtain ⟨s1, s2⟩ := shown_spec hst gp h4
    refine ⟨by rw [Function.comp_apply, List.length_map, s1], fun i => ?_⟩
    obtain ⟨k, k1, k2⟩ := s2 i
    obtain ⟨b, hb, hh⟩ := encloses_get (h7 (hsafe x h5)) (point_get hst.pos x (τ i))
    rw [hb] at k2
    refine ⟨k, ((b.vdo : ℚ) / 2 ^ b.kdo, (b.vup : ℚ) / 2 ^ b.kup), k1, ?_, ?_, ?_⟩
    · rw [Function.comp_apply, List.getElem?_map, k2]
      rfl
    · push_cast
      exact hh.1
    · push_cast
      exact hh.2

end

/-! ### Sufficient precision -/

theorem iv_congr {up up' : ℕ → ℤ} {deg : ℕ} (h : ∀ i, i ≤ deg → up i = up' i) (k : ℕ) (a b : ℤ) : ∀ j, iv up deg k a b j = iv up' deg k a b j
  | 0 => by rw [iv, iv, h deg le_rfl]
  | j + 1 => by rw [iv, iv, iv_congr h k a b j, h _ (by omega)]

theorem hv_congr {up up' : ℕ → ℤ} {deg : ℕ} (h : ∀ i, i ≤ deg → up i = up' i) (x : ℝ) : ∀ j, hv up deg x j = hv up' deg x j
  | 0 => by rw [hv, hv, h deg le_rfl]
  | j + 1 => by rw [hv, hv, hv_congr h x j, h _ (by omega)]

/-- The precision suffices for the multiples of `w`. -/
structure Large (w : Polynomial ℚ) (P : ℕ) : Prop where
  apart : ∀ x y : ℝ, Polynomial.aeval x w = 0 → Polynomial.aeval y w = 0 → x ≠ y → 1 / 2 ^ P ≤ |x - y|
  safe : ∀ x : ℝ, Polynomial.aeval x w = 0 → ∀ (up : ℕ → ℤ) (s : ℚ), s ≠ 0 → (∀ i, i < w.natDegree → (up i : ℚ) = s * (w.coeff (i + 1) * (i + 1))) → ∀ k ≥ P, ∀ r : ℤ,
    (r : ℝ) ≤ 2 ^ k * x → 2 ^ k * x ≤ r + 1 → ∀ j < w.natDegree - 1, ¬ Straddles (iv up (w.natDegree - 1) k r (r + 1) j) ∨ hv up (w.natDegree - 1) x j = 0

theorem Large.mono {w : Polynomial ℚ} {P Q : ℕ} (h : Large w P) (hPQ : P ≤ Q) : Large w Q where
  apart x y hx hy hne := le_trans (one_div_le_one_div_of_le (by positivity) (pow_le_pow_right₀ (by norm_num) hPQ)) (h.apart x y hx hy hne)
  safe x hx up s hs hup k hk := h.safe x hx up s hs hup k (le_trans hPQ hk)

theorem finset_bound {α : Type*} (S : Finset α) {p : α → ℕ → Prop} (hm : ∀ a P Q, P ≤ Q → p a P → p a Q) (h : ∀ a ∈ S, ∃ P, p a P) :
    ∃ P, ∀ a ∈ S, p a P := by
  classical
  induction S using Finset.induction_on with
  | empty => exact ⟨0, by simp⟩
  | insert a S _ ih =>
    obtain ⟨P, hP⟩ := ih fun b hb => h b (Finset.mem_insert_of_mem hb)
    obtain ⟨Q, hQ⟩ := h a (Finset.mem_insert_self _ _)
    refine ⟨max P Q, fun b hb => ?_⟩
    rcases Finset.mem_insert.mp hb with rfl | hb
    · exact hm _ _ _ (le_max_right _ _) hQ
    · exact hm _ _ _ (le_max_left _ _) (hP b hb)

theorem exists_large {w : Polynomial ℚ} (hw : w ≠ 0) : ∃ P, Large w P := by
  classical
  set S : Finset ℝ := (w.aroots ℝ).toFinset with hS
  have hmem : ∀ x : ℝ, Polynomial.aeval x w = 0 → x ∈ S := fun x hx => by
    rw [hS, Multiset.mem_toFinset, Polynomial.mem_aroots]
    exact ⟨hw, hx⟩
  obtain ⟨P1, h1⟩ := finset_bound (S ×ˢ S) (p := fun q P => q.1 ≠ q.2 → 1 / 2 ^ P ≤ |q.1 - q.2|)
    (fun q P Q hPQ hP hne => le_trans (one_div_le_one_div_of_le (by positivity) (pow_le_pow_right₀ (by norm_num) hPQ)) (hP hne)) (fun q _ => by
      by_cases hne : q.1 = q.2
      · exact ⟨0, fun h => absurd hne h⟩
      · obtain ⟨P, hP⟩ := exists_pow_lt_of_lt_one (abs_pos.mpr (sub_ne_zero.mpr hne)) (show (1 / 2 : ℝ) < 1 by norm_num)
        refine ⟨P, fun _ => ?_⟩
        rw [one_div_pow] at hP
        exact hP.le)
  -- a multiple with integer coefficients
  obtain ⟨b, hb, hbw⟩ : ∃ b : ℤ, b ≠ 0 ∧ ∃ W : Polynomial ℤ, W.map (Int.castRingHom ℚ) = Polynomial.C (b : ℚ) * w := by
    obtain ⟨b, hb0, hb⟩ := IsLocalization.integerNormalization_spec (nonZeroDivisors ℤ) w
    refine ⟨b, nonZeroDivisors.ne_zero hb0, IsLocalization.integerNormalization (nonZeroDivisors ℤ) w, ?_⟩
    have e : (algebraMap ℤ ℚ) = Int.castRingHom ℚ := rfl
    rw [← e, hb]
    ext i
    simp
  obtain ⟨W, hW⟩ := hbw
  have hWc : ∀ i, (W.coeff i : ℚ) = b * w.coeff i := by
    intro i
    have := congrArg (fun q => Polynomial.coeff q i) hW
    simpa using this
  set up0 : ℕ → ℤ := fun i => if i < w.natDegree then W.coeff (i + 1) * (i + 1) else 0 with hup0
  obtain ⟨P2, h2⟩ := finset_bound S (p := fun x P => ∀ (up : ℕ → ℤ) (c : ℝ), c ≠ 0 → (∀ i, (up i : ℝ) = c * up0 i) → ∀ k ≥ P, ∀ r : ℤ,
      (r : ℝ) ≤ 2 ^ k * x → 2 ^ k * x ≤ r + 1 → ∀ j < w.natDegree - 1, ¬ Straddles (iv up (w.natDegree - 1) k r (r + 1) j) ∨ hv up (w.natDegree - 1) x j = 0)
    (fun x P Q hPQ hP up c hc hup k hk => hP up c hc hup k (le_trans hPQ hk)) (fun x _ => noStraddle_uniform up0 _ x _)
  refine ⟨max P1 P2, ?_, ?_⟩
  · intro x y hx hy hne
    exact le_trans (one_div_le_one_div_of_le (by positivity) (pow_le_pow_right₀ (by norm_num) (le_max_left _ _)))
      (h1 (x, y) (Finset.mem_product.mpr ⟨hmem x hx, hmem y hy⟩) hne)
  · intro x hx up s hs hup k hk r hr1 hr2 j hj
    set up' : ℕ → ℤ := fun i => if i < w.natDegree then up i else 0 with hup'
    have hcg : ∀ i, i ≤ w.natDegree - 1 → up i = up' i := fun i hi => by rw [hup']; exact (if_pos (by omega)).symm
    rw [iv_congr hcg, hv_congr hcg]
    refine h2 x (hmem x hx) up' ((s : ℝ) / b) (div_ne_zero (by exact_mod_cast hs) (by exact_mod_cast hb)) (fun i => ?_) k
      (le_trans (le_max_right _ _) hk) r hr1 hr2 j hj
    rw [hup', hup0]
    by_cases hi : i < w.natDegree
    · simp only [if_pos hi]
      have e1 : ((up i : ℤ) : ℝ) = s * (w.coeff (i + 1) * (i + 1)) := by exact_mod_cast congrArg (fun q : ℚ => (q : ℝ)) (hup i hi)
      have e2 : ((W.coeff (i + 1) : ℤ) : ℝ) = b * w.coeff (i + 1) := by exact_mod_cast congrArg (fun q : ℚ => (q : ℝ)) (hWc (i + 1))
      have hb' : (b : ℝ) ≠ 0 := by exact_mod_cast hb
      push_cast
      rw [e1, e2]
      field_simp
    · simp [if_neg hi]

theorem safe_of {g : Gens} {d : ℕ} {m : PSt} {k0 : ℕ} (hd : 0 < d) (h : HornerSafe (paramData g.nvars d m).elim (paramData g.nvars d m).denom k0) (x : ℝ)
    (hx : (rp m.E d).eval x = 0) (k : ℕ) (hk : k ≥ k0) (r : ℤ) (hr1 : (r : ℝ) ≤ 2 ^ k * x) (hr2 : 2 ^ k * x ≤ r + 1) : Safe (paramOf g.nvars d m) x r k := by
  intro j hj
  have hj' : j < d - 1 := hj
  have hpow : (0 : ℝ) < 2 ^ k := by positivity
  have hev : value (paramData g.nvars d m).elim x = (rp m.E d).eval x := by rw [lval_rp]; exact value_lval _ _ x
  have key := h x (hev.trans hx) k hk r (by rw [div_le_iff₀ hpow]; linarith) (by rw [le_div_iff₀ hpow]; linarith)
  have hdl : (paramData g.nvars d m).denom.length - 1 = d - 1 := by simp [paramData]
  rw [hdl] at key
  have hcg : ∀ i, i ≤ d - 1 → ParamLift.denom m i = (paramData g.nvars d m).denom.getD i 0 := fun i hi => (getD_range (ParamLift.denom m) (by omega)).symm
  refine Or.inl ?_
  show ¬ Straddles (iv (ParamLift.denom m) (d - 1) k r (r + 1) j)
  rw [iv_congr hcg, iv_eq_hornerIv (ends_succ r) _ _ _ j fun i hi => key i (by omega)]
  exact key j hj'

theorem aeval_rp {w : Polynomial ℚ} {d : ℕ} {E : ℕ → ℤ} (hwd : w.natDegree = d) (h : ∀ i, i ≤ d → ((E i : ℤ) : ℚ) = E d * w.coeff i) (x : ℝ) :
    (rp E d).eval x = E d * Polynomial.aeval x w := by
  rw [lval_rp, Polynomial.aeval_eq_sum_range, hwd, Finset.mul_sum]
  unfold lval
  refine Finset.sum_congr rfl fun i hi => ?_
  have := h i (by have := Finset.mem_range.mp hi; omega)
  have e : ((E i : ℤ) : ℝ) = E d * (w.coeff i : ℝ) := by exact_mod_cast congrArg (fun q : ℚ => (q : ℝ)) this
  rw [e, Algebra.smul_def, mul_assoc]
  rfl

/-! ### Runs -/

section
variable {f : File} {names : List (List Char)} {tss : List (List Text.Mon)} {handling : ℕ} {us : ℤ} {nt prec gp : ℕ}
  {sys : List (List ((ℤ × ℤ) × List ℤ))} {ps : List ℕ} {out : List Char}
  {n' : ℕ} {τ : Fin names.length → Fin n'} {tss' : List (List Text.Mon)}

theorem run_real (h : InputOkQ f names tss) (hA : ['A'] ∉ names) (hquote : ∀ nm ∈ names, '\'' ∉ nm)
    (hrun : SolveQ.Run handling us nt prec gp f.text sys ps out) (hv : Variant names.length tss n' τ tss') (hsys : sys = tss'.map (qqPoly n'))
    (hgp : ∀ p ∈ ps, GoodPrime (n := n') OKind.drl.mo tss' p) (hnd : ps.Nodup)
    (h0 : idealQ names.length tss ≠ ⊤) (hfin : Module.Finite ℚ (MvPolynomial (Fin names.length) ℚ ⧸ idealQ names.length tss)) :
    ∃ (out2 : List Char) (d : ℕ) (pnames : List (List Char)) (form : List ℚ) (elim denom : List ℤ) (coords : List (List ℤ × ℤ)),
      SolveQ.Run handling us nt prec 2 f.text sys ps out2 ∧ readOutput out2 = some (.list [.num 0, ratParam pnames.length d pnames form elim denom coords]) ∧
      SolveQ.Result0 names (idealQ names.length tss) (idealQ n' tss') ps d pnames elim denom coords ∧
      (gp ≤ 1 → ∃ boxes, readOutput out = some (.list (.num 0 ::
          ((if gp = 1 then [ratParam pnames.length d pnames form elim denom coords] else []) ++ [points boxes]))) ∧
        (elim.length = d + 1 → d + 1 < 2 ^ 32 → ExactFor (idealQ n' tss') elim coords →
          (RootsApart elim (max prec 128) → ∃ sols, RealZeros (idealQ names.length tss) sols ∧ boxes.length = sols.length ∧
            (HornerSafe elim denom (max prec 128) → List.Forall₂ (InBox names (boxOrder gp names pnames)) boxes sols)) ∧
          ((∀ (last : Fin n') w c, last.val = n' - 1 → Shape (idealQ n' tss') last w c → Large w prec) →
            ∃ sols, RealZeros (idealQ names.length tss) sols ∧ List.Forall₂ (InBox names (boxOrder gp names pnames)) boxes sols))) ∧
      (elim.length = d + 1 → d + 1 < 2 ^ 32 → ExactFor (idealQ n' tss') elim coords → ∀ prec', RootsApart elim (max prec' 128) → ∀ gp' ≤ 1,
        ∃ out' boxes sols, SolveQ.Run handling us nt prec' gp' f.text sys ps out' ∧ readOutput out' = some (.list (.num 0 ::
            ((if gp' = 1 then [ratParam pnames.length d pnames form elim denom coords] else []) ++ [points boxes]))) ∧
          RealZeros (idealQ names.length tss) sols ∧ boxes.length = sols.length ∧
          (HornerSafe elim denom (max prec' 128) → List.Forall₂ (InBox names (boxOrder gp' names pnames)) boxes sols)) ∧ (gp = 2 → out2 = out) := by
  obtain ⟨g, chk, a, tss2, τ2, hv2, hread, hs2, hst, hatt, hpr, hden, ⟨⟨nums, den⟩, hpf⟩, hre⟩ := run_partsQ h hrun
  obtain ⟨ht, hte⟩ := variant_terms hv h.file.polys h.file.terms
  have hrows := hsys.symm.trans hs2
  obtain rfl := rows_length hrows ht hte
  have hgood : AttGood (idealQ g.nvars tss') ps a :=
    attempt_good hst.pos ht hte (variant_expanded hv h.expanded) (by rw [hread, hsys]) hatt hgp hnd
  have hrel : Rel (idealQ names.length tss) (idealQ g.nvars tss') τ2 := idealQ_congr hrows ▸ variant_rel hv2
  have hnm : ∀ s ∈ g.vnames, '\'' ∉ s.toList := by
    intro s hs
    rcases hst.mem s hs with rfl | ⟨nm, hnm, rfl⟩
    · decide
    · rw [String.toList_ofList]
      exact hquote nm hnm
  cases a with
  | empty => exact absurd (hrel.top.mpr hgood) h0
  | positive => exact absurd (hrel.finite.mp hfin) hgood
  | failed => exact absurd hpr (by simp [PrintsQ])
  | generic => exact absurd hpr (by simp [PrintsQ])
  | bad => exact absurd hpr (by simp [PrintsQ])
  | ok d nsols m =>
    have hres := result_ok hA hst hrel hgood
    obtain ⟨h1, h2, h3, h4, h5⟩ := hgood
    obtain ⟨pts, hpts, hD⟩ := hpr
    have hq : (0 : ℤ) < d := by exact_mod_cast h4
    have hpl' : (g.vnames.map String.toList).length = g.nvars := by rw [List.length_map, hst.len]
    have hct : ((paramData g.nvars nsols m).coords.getD []).take (g.nvars - 1) = (paramData g.nvars nsols m).coords.getD [] := by
      apply List.take_of_length_le
      simp [paramData]
    have hfit : (paramData g.nvars nsols m).fits g := ⟨hst.pos, hst.len.ge, fun _ l hl => by
      obtain rfl := Option.some.inj hl
      simp⟩
    have hshow : ∀ gp', 1 ≤ gp' → ∀ pts, ∃ w, displayOutput g 0 d gp' (paramData g.nvars nsols m) pts = some w ∧ readOutput w = some (.list (.num 0 ::
        ratParam g.nvars d (g.vnames.map String.toList) (nums.map fun a : ℤ => (a : ℚ) / den) (paramData g.nvars nsols m).elim (paramData g.nvars nsols m).denom
          ((paramData g.nvars nsols m).coords.getD []) :: if gp' = 1 then [points (boundsOf pts)] else [])) := by
      intro gp' hg' pts
      obtain ⟨w, hw, hr⟩ := C71_param hst.fc hq hg' hfit hpf (hden _ _ hpf) hnm pts
      rw [List.take_of_length_le hst.len.le, hct] at hr
      exact ⟨w, hw, hr⟩
    obtain ⟨out2, o1, o2⟩ := hshow 2 (by norm_num) []
    refine ⟨out2, d, g.vnames.map String.toList, nums.map fun a : ℤ => (a : ℚ) / den, (paramData g.nvars nsols m).elim, (paramData g.nvars nsols m).denom,
      (paramData g.nvars nsols m).coords.getD [], hre _ _ _ ⟨[], rfl, o1⟩, by rw [o2, hpl']; rfl, hres, fun hgp1 => ?_, ?_, ?_⟩
    · unfold RealPts at hpts
      rw [if_neg (by omega)] at hpts
      obtain ⟨shl, K, raw, hK, rfl⟩ := hpts
      refine ⟨boundsOf (raw.map (shown gp g)), ?_, fun hel hsm hex => ?_⟩
      · rcases (by omega : gp = 0 ∨ gp = 1) with rfl | rfl
        · obtain ⟨w, hw, hr⟩ := C71_points hst.fc hq (paramData g.nvars nsols m) (raw.map (shown 0 g))
          obtain rfl := Option.some.inj (hD.symm.trans hw)
          exact hr
        · obtain ⟨w, hw, hr⟩ := hshow 1 le_rfl (raw.map (shown 1 g))
          obtain rfl := Option.some.inj (hD.symm.trans hw)
          rw [hr, hpl']
          rfl
      · obtain rfl : nsols = d := by simpa [paramData] using hel
        obtain ⟨last, w, c, hl, hS, hsep, hwd, hL⟩ := h5 rfl hsm
        obtain ⟨he, hc⟩ := hex last w c hl hS
        obtain ⟨-, hE0, hEc⟩ := good_param h4 hwd hsep hL he
        have hev : ∀ x : ℝ, value (paramData g.nvars nsols m).elim x = (rp m.E nsols).eval x := fun x => by rw [lval_rp]; exact value_lval _ _ x
        have hrt : ∀ x : ℝ, (rp m.E nsols).eval x = 0 ↔ Polynomial.aeval x w = 0 := fun x => by
          rw [aeval_rp hwd hEc]
          have : (m.E nsols : ℝ) ≠ 0 := by exact_mod_cast hE0
          simp [this]
        constructor
        · intro hap
          obtain ⟨K', raw', sols, hK', hz, hlen, hin⟩ := real_core (gp := gp) hst hrel h4 hl hS hsep hwd hL he hc hap shl
          obtain rfl : raw = raw' := by
            have e1 := hK (max K K') (le_max_left _ _)
            rw [hK' _ (le_max_right _ _)] at e1
            injection e1 with e1
            exact e1.symm
          exact ⟨sols, hz, hlen, fun hsafe => hin (safe_of h4 hsafe)⟩
        · intro hlarge
          have hw := hlarge last w c hl hS
          have hap : RootsApart (paramData g.nvars nsols m).elim (max prec 128) := by
            intro x y hx hy hne
            rw [hev, hrt] at hx hy
            exact (hw.mono (le_max_left _ _)).apart x y hx hy hne
          obtain ⟨K', raw', sols, hK', hz, hlen, hin⟩ := real_core (gp := gp) hst hrel h4 hl hS hsep hwd hL he hc hap shl
          obtain rfl : raw = raw' := by
            have e1 := hK (max K K') (le_max_left _ _)
            rw [hK' _ (le_max_right _ _)] at e1
            injection e1 with e1
            exact e1.symm
          refine ⟨sols, hz, hin fun x hx k hk r hr1 hr2 j hj => ?_⟩
          have := (hw.mono (le_max_left prec 128)).safe x ((hrt x).mp hx) (ParamLift.denom m) (m.E nsols) (by exact_mod_cast hE0) (fun i hi => ?_) k hk r hr1 hr2 j
            (by rw [hwd]; exact hj)
          · rwa [hwd] at this
          · unfold ParamLift.denom
            push_cast
            rw [hEc (i + 1) (by omega)]
            ring
    · intro hel hsm hex prec' hap gp' hgp'
      obtain rfl : nsols = d := by simpa [paramData] using hel
      obtain ⟨last, w, c, hl, hS, hsep, hwd, hL⟩ := h5 rfl hsm
      obtain ⟨he, hc⟩ := hex last w c hl hS
      obtain ⟨K', raw', sols, hK', hz, hlen, hin⟩ := real_core (gp := gp') hst hrel h4 hl hS hsep hwd hL he hc hap fun _ => 0
      have hR : RealPts prec' gp' g nsols m (raw'.map (shown gp' g)) := by
        unfold RealPts
        rw [if_neg (by omega)]
        exact ⟨_, K', raw', hK', rfl⟩
      rcases (by omega : gp' = 0 ∨ gp' = 1) with rfl | rfl
      · obtain ⟨w, hw, hr⟩ := C71_points hst.fc hq (paramData g.nvars nsols m) (raw'.map (shown 0 g))
        exact ⟨w, _, sols, hre _ _ _ ⟨_, hR, hw⟩, hr, hz, hlen, fun hsafe => hin (safe_of h4 hsafe)⟩
      · obtain ⟨w, hw, hr⟩ := hshow 1 le_rfl (raw'.map (shown 1 g))
        refine ⟨w, _, sols, hre _ _ _ ⟨_, hR, hw⟩, ?_, hz, hlen, fun hsafe => hin (safe_of h4 hsafe)⟩
        rw [hr, hpl']
        rfl
    · rintro rfl
      obtain rfl : pts = [] := hpts
      exact Option.some.inj (o1.symm.trans hD)

end

end SolveReal

open Verif.F4 Verif.Spec Verif.Spec.Solutions
open Verif.Spec.Output (readOutput Tree points)
open Verif.Spec.Text (File idealQ Variant GoodPrime)
open Verif.Parse (qqPoly)
open Verif.Props.EndToEndQq (InputOkQ)
open MvPolynomial

section
variable {f : File} {names : List (List Char)} {tss : List (List Text.Mon)} {handling : ℕ} {us : ℤ} {nt prec gp : ℕ}
  {sys : List (List ((ℤ × ℤ) × List ℤ))} {ps : List ℕ} {out : List Char} {n' : ℕ} {τ : Fin names.length → Fin n'} {tss' : List (List Text.Mon)}

/-- C81: for good primes `[-1]` is printed, with real solutions requested, exactly if the polynomials generate the unit ideal. -/
theorem C81_empty (h : InputOkQ f names tss) (hA : ['A'] ∉ names) (hquote : ∀ nm ∈ names, '\'' ∉ nm)
    (hrun : SolveQ.Run handling us nt prec gp f.text sys ps out) (hgp1 : gp ≤ 1) (hv : Variant names.length tss n' τ tss') (hsys : sys = tss'.map (qqPoly n'))
    (hgp : ∀ p ∈ ps, GoodPrime (n := n') OKind.drl.mo tss' p) (hnd : ps.Nodup) :
    readOutput out = some (.list [.num (-1)]) ↔ idealQ names.length tss = ⊤ := by
  have htop : idealQ names.length tss = ⊤ → Module.Finite ℚ (MvPolynomial (Fin names.length) ℚ ⧸ idealQ names.length tss) := by
    intro ht
    have : Subsingleton (MvPolynomial (Fin names.length) ℚ ⧸ idealQ names.length tss) := Ideal.Quotient.subsingleton_iff.mpr ht
    infer_instance
  rcases SolveQ.run_casesQ h hA hquote hrun hv hsys hgp hnd with ⟨h0, h1⟩ | ⟨h0, h1⟩ | ⟨h0, h1, -⟩
  · exact ⟨fun _ => h0, fun _ => h1⟩
  · rw [h1]
    exact ⟨fun h => by simp at h, fun h => absurd (htop h) h0⟩
  · obtain ⟨_, _, _, _, _, _, _, -, -, -, h2, -⟩ := SolveReal.run_real h hA hquote hrun hv hsys hgp hnd h0 h1
    obtain ⟨boxes, h3, -⟩ := h2 hgp1
    rw [h3]
    exact ⟨fun h => by simp at h, fun h => absurd h h0⟩

/-- C81: for good primes `[1, nvars, -1, []]` is printed, with real solutions requested, exactly if the quotient ring has infinite dimension. -/
theorem C81_positive (h : InputOkQ f names tss) (hA : ['A'] ∉ names) (hquote : ∀ nm ∈ names, '\'' ∉ nm)
    (hrun : SolveQ.Run handling us nt prec gp f.text sys ps out) (hgp1 : gp ≤ 1) (hv : Variant names.length tss n' τ tss') (hsys : sys = tss'.map (qqPoly n'))
    (hgp : ∀ p ∈ ps, GoodPrime (n := n') OKind.drl.mo tss' p) (hnd : ps.Nodup) :
    readOutput out = some (.list [.num 1, .num n', .num (-1), .list []]) ↔ ¬ Module.Finite ℚ (MvPolynomial (Fin names.length) ℚ ⧸ idealQ names.length tss) := by
  have htop : idealQ names.length tss = ⊤ → Module.Finite ℚ (MvPolynomial (Fin names.length) ℚ ⧸ idealQ names.length tss) := by
    intro ht
    have : Subsingleton (MvPolynomial (Fin names.length) ℚ ⧸ idealQ names.length tss) := Ideal.Quotient.subsingleton_iff.mpr ht
    infer_instance
  rcases SolveQ.run_casesQ h hA hquote hrun hv hsys hgp hnd with ⟨h0, h1⟩ | ⟨h0, h1⟩ | ⟨h0, h1, -⟩
  · rw [h1]
    exact ⟨fun h => by simp at h, fun h => absurd (htop h0) h⟩
  · exact ⟨fun _ => h0, fun _ => h1⟩
  · obtain ⟨_, _, _, _, _, _, _, -, -, -, h2, -⟩ := SolveReal.run_real h hA hquote hrun hv hsys hgp hnd h0 h1
    obtain ⟨boxes, h3, -⟩ := h2 hgp1
    rw [h3]
    exact ⟨fun h => by simp at h, fun h => absurd h1 h⟩

/-- C81 (partial): for good primes and finitely many solutions (at least one), boxes are printed (`-P 0`), or a parametrization and boxes (`-P 1`); the same computation
prints the parametrization with `-P 2`.  If the eliminating polynomial has degree `d`, the parametrization is exact and the roots have a distance of `2^-max(prec, 128)`
at least, there is one box for each real solution of the file; if the evaluation of the denominator is safe, each box contains its
solution.
Missing: exactness, parametrizations of smaller degree, closer roots, unsafe evaluations (C54 shows that these print wrong boxes). -/
theorem C81_points_partial (h : InputOkQ f names tss) (hA : ['A'] ∉ names) (hquote : ∀ nm ∈ names, '\'' ∉ nm)
    (hrun : SolveQ.Run handling us nt prec gp f.text sys ps out) (hgp1 : gp ≤ 1) (hv : Variant names.length tss n' τ tss') (hsys : sys = tss'.map (qqPoly n'))
    (hgp : ∀ p ∈ ps, GoodPrime (n := n') OKind.drl.mo tss' p) (hnd : ps.Nodup)
    (h0 : idealQ names.length tss ≠ ⊤) (hfin : Module.Finite ℚ (MvPolynomial (Fin names.length) ℚ ⧸ idealQ names.length tss)) :
    ∃ (out2 : List Char) (d : ℕ) (pnames : List (List Char)) (form : List ℚ) (elim denom : List ℤ) (coords : List (List ℤ × ℤ)) (boxes : List (List (ℚ × ℚ))),
      SolveQ.Run handling us nt prec 2 f.text sys ps out2 ∧ readOutput out2 = some (.list [.num 0, ratParam pnames.length d pnames form elim denom coords]) ∧
      SolveQ.Result0 names (idealQ names.length tss) (idealQ n' tss') ps d pnames elim denom coords ∧
      readOutput out = some (.list (.num 0 :: ((if gp = 1 then [ratParam pnames.length d pnames form elim denom coords] else []) ++ [points boxes]))) ∧
      (elim.length = d + 1 → d + 1 < 2 ^ 32 → ExactFor (idealQ n' tss') elim coords → RootsApart elim (max prec 128) →
        ∃ sols, RealZeros (idealQ names.length tss) sols ∧ boxes.length = sols.length ∧
          (HornerSafe elim denom (max prec 128) → List.Forall₂ (InBox names (if gp = 0 then names else pnames.take names.length)) boxes sols)) := by
  obtain ⟨out2, d, pnames, form, elim, denom, coords, h1, h2, h3, h4, -⟩ := SolveReal.run_real h hA hquote hrun hv hsys hgp hnd h0 hfin
  obtain ⟨boxes, h5, h6⟩ := h4 hgp1
  exact ⟨out2, d, pnames, form, elim, denom, coords, boxes, h1, h2, h3, h5, fun a b c => (h6 a b c).1⟩

/-- C81 (partial): with sufficient precision (that depends on the system only) the boxes printed for an exact parametrization of degree `d` contain the real solutions of
the file, each box one of them.
Missing: exactness, parametrizations of smaller degree; a bound for the precision. -/
theorem C81_large_precision_partial (h : InputOkQ f names tss) (hA : ['A'] ∉ names) (hquote : ∀ nm ∈ names, '\'' ∉ nm) (hv : Variant names.length tss n' τ tss')
    (h0 : idealQ names.length tss ≠ ⊤) (hfin : Module.Finite ℚ (MvPolynomial (Fin names.length) ℚ ⧸ idealQ names.length tss)) :
    ∃ P : ℕ, ∀ (handling : ℕ) (us : ℤ) (nt prec gp : ℕ) (sys : List (List ((ℤ × ℤ) × List ℤ))) (ps : List ℕ) (out : List Char), P ≤ prec → gp ≤ 1 →
      SolveQ.Run handling us nt prec gp f.text sys ps out → sys = tss'.map (qqPoly n') → (∀ p ∈ ps, GoodPrime (n := n') OKind.drl.mo tss' p) → ps.Nodup →
      ∃ (out2 : List Char) (d : ℕ) (pnames : List (List Char)) (form : List ℚ) (elim denom : List ℤ) (coords : List (List ℤ × ℤ)) (boxes : List (List (ℚ × ℚ))),
        SolveQ.Run handling us nt prec 2 f.text sys ps out2 ∧ readOutput out2 = some (.list [.num 0, ratParam pnames.length d pnames form elim denom coords]) ∧
        d = Module.finrank ℚ (MvPolynomial (Fin names.length) ℚ ⧸ idealQ names.length tss) ∧
        readOutput out = some (.list (.num 0 :: ((if gp = 1 then [ratParam pnames.length d pnames form elim denom coords] else []) ++ [points boxes]))) ∧
        (elim.length = d + 1 → d + 1 < 2 ^ 32 → ExactFor (idealQ n' tss') elim coords →
          ∃ sols, RealZeros (idealQ names.length tss) sols ∧ List.Forall₂ (InBox names (if gp = 0 then names else pnames.take names.length)) boxes sols) := by
  have hP : ∃ P, ∀ (last : Fin n') w c, last.val = n' - 1 → Shape (idealQ n' tss') last w c → SolveReal.Large w P := by
    by_cases hS : ∃ (last : Fin n') (w : Polynomial ℚ) (c : Fin n' → Polynomial ℚ), last.val = n' - 1 ∧ Shape (idealQ n' tss') last w c
    · obtain ⟨last, w, c, hl, hS⟩ := hS
      obtain ⟨P, hP⟩ := SolveReal.exists_large hS.monic.ne_zero
      refine ⟨P, fun last' w' c' hl' hS' => ?_⟩
      obtain rfl : last = last' := Fin.ext (by omega)
      obtain ⟨rfl, -⟩ := hS.unique hS'
      exact hP
    · exact ⟨0, fun last w c hl hS' => absurd ⟨last, w, c, hl, hS'⟩ hS⟩
  obtain ⟨P, hP⟩ := hP
  refine ⟨P, fun handling us nt prec gp sys ps out hprec hgp1 hrun hsys hgp hnd => ?_⟩
  obtain ⟨out2, d, pnames, form, elim, denom, coords, h1, h2, h3, h4, -⟩ := SolveReal.run_real h hA hquote hrun hv hsys hgp hnd h0 hfin
  obtain ⟨boxes, h5, h6⟩ := h4 hgp1
  exact ⟨out2, d, pnames, form, elim, denom, coords, boxes, h1, h2, h3.rank, h5,
    fun a b c => (h6 a b c).2 fun last w c hl hS => (hP last w c hl hS).mono hprec⟩

/-- C81 (partial): a computation that prints an exact parametrization of degree `d` with `-P 2` ends with `-P 0` and `-P 1` too, if the roots have a distance of
`2^-max(prec, 128)` at least, and prints one box for each real solution; if the evaluation of the denominator is safe, each box contains its solution.
Missing: exactness, parametrizations of smaller degree, closer roots. -/
theorem C81_ends_partial (h : InputOkQ f names tss) (hA : ['A'] ∉ names) (hquote : ∀ nm ∈ names, '\'' ∉ nm)
    (hrun : SolveQ.Run handling us nt prec 2 f.text sys ps out) (hv : Variant names.length tss n' τ tss') (hsys : sys = tss'.map (qqPoly n'))
    (hgp : ∀ p ∈ ps, GoodPrime (n := n') OKind.drl.mo tss' p) (hnd : ps.Nodup)
    (h0 : idealQ names.length tss ≠ ⊤) (hfin : Module.Finite ℚ (MvPolynomial (Fin names.length) ℚ ⧸ idealQ names.length tss)) :
    ∃ (d : ℕ) (pnames : List (List Char)) (form : List ℚ) (elim denom : List ℤ) (coords : List (List ℤ × ℤ)),
      readOutput out = some (.list [.num 0, ratParam pnames.length d pnames form elim denom coords]) ∧
      SolveQ.Result0 names (idealQ names.length tss) (idealQ n' tss') ps d pnames elim denom coords ∧
      (elim.length = d + 1 → d + 1 < 2 ^ 32 → ExactFor (idealQ n' tss') elim coords → ∀ prec', RootsApart elim (max prec' 128) → ∀ gp' ≤ 1,
        ∃ out' boxes sols, SolveQ.Run handling us nt prec' gp' f.text sys ps out' ∧ readOutput out' = some (.list (.num 0 ::
            ((if gp' = 1 then [ratParam pnames.length d pnames form elim denom coords] else []) ++ [points boxes]))) ∧
          RealZeros (idealQ names.length tss) sols ∧ boxes.length = sols.length ∧
          (HornerSafe elim denom (max prec' 128) → List.Forall₂ (InBox names (if gp' = 0 then names else pnames.take names.length)) boxes sols)) := by
  obtain ⟨out2, d, pnames, form, elim, denom, coords, h1, h2, h3, -, h4, h5⟩ := SolveReal.run_real h hA hquote hrun hv hsys hgp hnd h0 hfin
  obtain rfl := h5 rfl
  exact ⟨d, pnames, form, elim, denom, coords, h2, h3, h4⟩

end

end Verif.Props
