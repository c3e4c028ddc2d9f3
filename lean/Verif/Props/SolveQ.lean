import Verif.Props.SolveQAttempt
import Verif.Props.SolveQStates
import Verif.Props.Solve

/-!
C80: the complete computation of a parametrization over the rationals.
-/
namespace Verif.Props
namespace SolveQ

open Verif.F4 Verif.Spec Verif.MulMatrix Verif.VarOrder Verif.Output Verif.SolveQ Verif.ExportF4 Verif.PrintQq Verif.Groebner
open Verif.Parse (qqPoly expoRow)
open Verif.Props.EndToEndQq (InputOkQ read_fileQ lucky_all)
open Verif.Spec.Text (SystemQ File ExpandedQ idealQ polyQ polyMod Variant SameBut GoodPrime scaled LuckyPrime)
open Verif.Spec.Solutions (value DescribedQ elimErr coordErr LiftOf)
open Verif.Spec.Output (readOutput Tree points)
open Verif.Props.Solve (Rel ofFn_vec)
open MvPolynomial

/-! ### The restarts -/

theorem loop_runQ {handling : ℕ} {us : ℤ} {nt : ℕ} {g0 g : Gens} {chk : Bool} {rs : List Result} (h : LoopQ handling us nt g0 g chk rs) :
    run handling g0 rs = some g ∧ ∀ d, .generic d ∈ rs → Accepted 0 (g0.nvars + 1) d := by
  induction h with
  | start => exact ⟨rfl, by simp⟩
  | failed _ _ hr ih =>
    refine ⟨?_, ?_⟩
    · have := ih.1
      unfold run at this ⊢
      rw [List.foldlM_append, this]
      simpa using hr
    · intro d hd
      exact ih.2 d (by simpa using hd)
  | generic d' _ _ ha hr ih =>
    refine ⟨?_, ?_⟩
    · have := ih.1
      unfold run at this ⊢
      rw [List.foldlM_append, this]
      simpa using hr
    · intro d hd
      rcases List.mem_append.mp hd with hd | hd
      · exact ih.2 d hd
      · simp only [List.mem_singleton, Result.generic.injEq] at hd
        exact hd ▸ ha

theorem start_gensOfQ {names : List (List Char)} {tss : List (List Text.Mon)} (h : SystemQ names tss) :
    Start (gensOfQ names (tss.map (qqPoly names.length))) := by
  have hrow : ∀ (n : ℕ) (t : Text.Mon), (expoRow n t).length = n := by intro n t; rw [← ofFn_vec]; simp
  refine ⟨⟨List.length_pos_iff.mpr h.some, by simp [gensOfQ], ?_, fun h => absurd h (lt_irrefl 0), fun _ => ?_⟩, rfl, rfl, rfl, Nat.zero_ne_one⟩
  · simp only [gensOfQ, List.map_map, List.flatMap_map]
    clear * - hrow
    induction tss with
    | nil => simp
    | cons ts l ih =>
      rw [List.flatMap_cons, List.length_append, List.map_cons, List.sum_cons, Nat.add_mul, ← ih]
      congr 1
      simp [qqPoly, List.length_flatMap, hrow, Function.comp_def]
  · simp only [gensOfQ, List.map_map, List.flatMap_map]
    clear * - hrow
    induction tss with
    | nil => simp
    | cons ts l ih =>
      rw [List.flatMap_cons, List.length_append, List.map_cons, List.sum_cons, Nat.mul_add, ← ih]
      congr 1
      simp [qqPoly, List.length_flatMap, Function.comp_def, Nat.mul_comm]

/-! ### The printed linear form -/

theorem failed_keeps {handling : ℕ} {g g' : Gens} (h : restart handling g .failed = some g') : g'.rand = g.rand ∧ g'.rform = g.rform := by
  have hundo : (undo g).1.rand = g.rand ∧ (undo g).1.rform = g.rform := by
    unfold undo
    split_ifs <;> simp [swapVars]
  have hch : (change g).1.rand = g.rand ∧ (change g).1.rform = g.rform := by
    unfold change
    rcases hu : undo g with ⟨g1, _ | _⟩ <;> rw [hu] at hundo
    · exact hundo
    · exact hundo
  have hset : ∀ {g1 g2 : Gens}, setForm g1 = some g2 → g2.rand = g1.rand ∧ g2.rform = g1.rform := by
    intro g1 g2 h
    unfold setForm at h
    simp only at h
    split_ifs at h <;> obtain ⟨v, -, rfl⟩ := Option.map_eq_some_iff.mp h <;> exact ⟨rfl, rfl⟩
  have hadd : ∀ {g1 g2 : Gens}, addLinear g1 = some g2 → g2.rand = g1.rand ∧ g2.rform = g1.rform := by
    intro g1 g2 h
    unfold addLinear at h
    have := hset h
    split_ifs at this <;> exact this
  unfold restart at h
  simp only at h
  by_cases hh : 0 < handling
  swap
  · rw [if_neg hh] at h; exact absurd h (by simp)
  rw [if_pos hh] at h
  rcases hc : change g with ⟨g1, _ | _⟩ <;> rw [hc] at h hch <;> simp only at h
  · by_cases h2 : handling = 2
    swap
    · rw [if_neg h2] at h; exact absurd h (by simp)
    rw [if_pos h2] at h
    obtain ⟨h1, h2⟩ := hadd h
    exact ⟨h1.trans hch.1, h2.trans hch.2⟩
  · obtain rfl := Option.some.inj h
    exact hch

theorem rand_form {handling : ℕ} {us : ℤ} {nt : ℕ} {g0 g : Gens} (h0 : Start g0) (hfc : g0.fc = 0) {chk : Bool} {rs : List Result}
    (h : LoopQ handling us nt g0 g chk rs) : g.rand = true → g.nvars = g0.nvars + 1 ∧ ∀ i, i < g.nvars → g.rform.getD i 0 ≠ 0 := by
  have hnv : ∀ {g : Gens}, Inv g0 g → g.rand = true → g.nvars = g0.nvars + 1 := by
    intro g hi hr
    cases hi with
    | same h => rw [h, h0.rand] at hr; exact absurd hr (by simp)
    | swapped c _ h => rw [h] at hr; exact absurd (h0.rand.symm.trans hr) (by simp)
    | form v _ _ h => exact h.nvars
  induction h with
  | start => rw [h0.rand]; exact fun h => absurd h (by simp)
  | failed hl ha hr ih =>
    intro hrand
    obtain ⟨e1, e2⟩ := failed_keeps hr
    obtain ⟨r1, r2⟩ := loop_runQ (.failed hl ha hr)
    obtain ⟨hi, -⟩ := run_inv h0 _ (hfc ▸ r2) _ r1
    have ih := ih (e1 ▸ hrand)
    have hn := hnv hi hrand
    refine ⟨hn, fun i hi => ?_⟩
    rw [e2]
    exact ih.2 i (by omega)
  | @generic g g' chk rs ps d hl ha hacc hr ih =>
    intro hrand
    obtain ⟨r1, r2⟩ := loop_runQ (.generic d hl ha hacc hr)
    obtain ⟨hi, -⟩ := run_inv h0 _ (hfc ▸ r2) _ r1
    have hn := hnv hi hrand
    refine ⟨hn, fun i hi => ?_⟩
    have hfc' : g'.fc = 0 := by
      cases ‹Inv g0 g'› with
      | same h => rw [h, hfc]
      | swapped c _ h => rw [h]; exact hfc
      | form v _ _ h => rw [h.fc, hfc]
    unfold restart at hr
    simp only at hr
    split_ifs at hr
    all_goals
      obtain rfl := Option.some.inj hr
      unfold addRandom setRandom at hi hn hfc' ⊢
      simp only at hi hn hfc' ⊢
      split_ifs at hi hn hfc' ⊢
      all_goals
        simp only at hi hn hfc' ⊢
        rw [List.getD_eq_getElem?_getD, List.getElem?_map, List.getElem?_range hi]
        have := hacc i (by omega)
        simp only [hfc'] at *
        simpa using this

theorem form_den {handling : ℕ} {us : ℤ} {nt : ℕ} {g0 g : Gens} (h0 : Start g0) (hfc : g0.fc = 0) {chk : Bool} {rs : List Result}
    (h : LoopQ handling us nt g0 g chk rs) {nums : List ℤ} {den : ℤ} (hpf : printedForm g = some (nums, den)) : 0 < den := by
  by_cases hr : g.rand = true ∧ g.fc = 0
  · obtain ⟨h1, h2⟩ := rand_form h0 hfc h hr.1
    have hn := h0.wf.pos
    unfold printedForm at hpf
    simp only [hr.1, hr.2, if_true, Option.some.injEq, Prod.mk.injEq] at hpf
    rw [← hpf.2]
    apply List.sum_pos
    · intro x hx
      obtain ⟨i, hi, rfl⟩ := List.mem_map.mp hx
      have hi := h2 i (List.mem_range.mp hi)
      have : 1 ≤ |g.rform.getD i 0| := Int.one_le_abs hi
      have : (2 : ℤ) ≤ g.nvars := by exact_mod_cast (by omega : 2 ≤ g.nvars)
      nlinarith
    · simp
      omega
  · rw [printedForm_den hpf hr]
    exact one_pos

theorem form_some {g0 g : Gens} (h0 : Start g0) (h : VarOrder.Inv g0 g) : ∃ q, printedForm g = some q := by
  cases h with
  | same h =>
    subst h
    exact ⟨_, (if_neg (by rw [h0.rand]; simp)).trans (if_neg (by rw [h0.lfbc]; omega))⟩
  | swapped c hc h =>
    subst h
    exact ⟨_, (if_neg (show ¬ g0.rand = true by rw [h0.rand]; simp)).trans (if_neg (show ¬ 0 < g0.lfbc by rw [h0.lfbc]; omega))⟩
  | form v hl hv he hp hu hr =>
    by_cases hrd : g.rand = true
    · exact ⟨_, if_pos hrd⟩
    · obtain ⟨nums, den, h1, -⟩ := hp (by simpa using hrd)
      exact ⟨_, h1⟩

/-! ### The printed text -/

theorem display_rat {g : Gens} (hfc : g.fc = 0) {d gp : ℕ} (hgp : 1 ≤ gp) (hd : 0 < d) {D : ParamData} {pts : List (List RealPoints.Box)} {out : List Char}
    (hnm : ∀ s ∈ g.vnames, '\'' ∉ s.toList) (hlen : g.vnames.length = g.nvars) (hden : ∀ nums den, printedForm g = some (nums, den) → 0 < den)
    (h : displayOutput g 0 d gp D pts = some out) :
    ∃ form : List ℚ, readOutput out = some (.list (.num 0 ::
      ratParam g.nvars d (g.vnames.map String.toList) form D.elim D.denom ((D.coords.getD []).take (g.nvars - 1)) ::
        if gp = 1 then [points (boundsOf pts)] else [])) := by
  have hq : (0 : ℤ) < d := by exact_mod_cast hd
  have h' := h
  rw [display_zero g hq, if_pos (show 1 ≤ gp ∨ g.fc ≠ 0 from .inl hgp)] at h'
  have h1 : D.fits g ∧ ∃ q, printedForm g = some q := by
    unfold paramText at h'
    by_cases hf : D.fits g
    · refine ⟨hf, ?_⟩
      cases hpf : printedForm g with
      | none => rw [hpf] at h'; simp [hf] at h'
      | some q => exact ⟨q, rfl⟩
    · simp [hf] at h'
  obtain ⟨hfit, ⟨nums, den⟩, hpf⟩ := h1
  obtain ⟨w, hw, hread⟩ := C71_param hfc hq hgp hfit hpf (hden _ _ hpf) hnm pts
  rw [h] at hw
  obtain rfl := Option.some.inj hw
  rw [List.take_of_length_le hlen.le] at hread
  exact ⟨_, hread⟩

/-! ### The points of an exactly lifted parametrization -/

theorem value_aeval {L : Type*} [Field L] [Algebra ℚ L] {l : List ℤ} {f : Polynomial ℚ} (h : ∀ i, ((l.getD i 0 : ℤ) : ℚ) = f.coeff i) (x : L) :
    value l x = Polynomial.aeval x f := by
  induction l generalizing f with
  | nil =>
    have : f = 0 := by
      ext i
      rw [← h i]
      simp
    rw [this, map_zero]
    rfl
  | cons c l ih =>
    have h0 := h 0
    rw [List.getD_cons_zero] at h0
    have h1 := ih (f := f.divX) fun i => by
      rw [Polynomial.coeff_divX, ← h (i + 1), List.getD_cons_succ]
    rw [← Polynomial.divX_mul_X_add f, map_add, map_mul, Polynomial.aeval_X, Polynomial.aeval_C, ← h0, ← h1]
    simp only [value, List.foldr_cons, map_intCast]
    ring

theorem getD_past {l : List ℤ} {i : ℕ} (h : l.length ≤ i) : l.getD i 0 = 0 := by
  rw [List.getD_eq_getElem?_getD, List.getElem?_eq_none h, Option.getD_none]

theorem lift_points {n : ℕ} {I : Ideal (MvPolynomial (Fin n) ℚ)} {last : Fin n} (hl : last.val = n - 1) {w : Polynomial ℚ} {c : Fin n → Polynomial ℚ}
    (hS : Shape I last w c) (hsep : w.Separable) (hd : 0 < w.natDegree) {ps : List ℕ} {elim denom : List ℤ} {coords : List (List ℤ × ℤ)}
    (hL : LiftOf ps w (fun k => if hk : k < n then c ⟨k, hk⟩ else 0) (n - 1) elim denom coords) (he : ∀ i, i ≤ w.natDegree → elimErr w elim i = 0)
    (hc : ∀ k, k ≠ last → ∀ j, j < w.natDegree → coordErr w (c k) elim (coords.getD k ([], 1)) j = 0) {L : Type*} [Field L] [Algebra ℚ L] (z : Fin n → L) :
    (∀ g ∈ I, aeval z g = 0) ↔ value elim (z last) = 0 ∧ value denom (z last) ≠ 0 ∧
      ∀ k : Fin n, k ≠ last → z k = - value (coords.getD k ([], 1)).1 (z last) / ((coords.getD k ([], 1)).2 * value denom (z last)) := by
  have : CharZero L := algebraRat.charZero L
  have hE : (elim.getD w.natDegree 0 : ℚ) ≠ 0 := by exact_mod_cast hL.lead
  have hfrac : ∀ (a : ℤ) (r b : ℚ), (a : ℚ) * r.den = b * r.num → (a : ℚ) = b * r := by
    intro a r b h
    have hr : (r.den : ℚ) ≠ 0 := by exact_mod_cast r.den_ne_zero
    rw [← mul_right_cancel_iff_of_pos (show (0 : ℚ) < r.den by exact_mod_cast r.den_pos), h, mul_assoc, Rat.mul_den_eq_num]
  have e1 : ∀ i, ((elim.getD i 0 : ℤ) : ℚ) = (Polynomial.C (elim.getD w.natDegree 0 : ℚ) * w).coeff i := by
    intro i
    rw [Polynomial.coeff_C_mul]
    by_cases hi : i ≤ w.natDegree
    · refine hfrac _ _ _ ?_
      have := he i hi
      unfold elimErr at this
      exact_mod_cast sub_eq_zero.mp this
    · rw [getD_past (by rw [hL.length]; omega), Polynomial.coeff_eq_zero_of_natDegree_lt (by omega)]
      simp
  have e2 : ∀ i, ((denom.getD i 0 : ℤ) : ℚ) = (Polynomial.C (elim.getD w.natDegree 0 : ℚ) * Polynomial.derivative w).coeff i := by
    intro i
    rw [Polynomial.coeff_C_mul, Polynomial.coeff_derivative, ← mul_assoc, ← Polynomial.coeff_C_mul, ← e1]
    by_cases hi : i < w.natDegree
    · rw [hL.den i hi]
      push_cast
      rfl
    · rw [getD_past (by rw [hL.dlen]; omega), getD_past (by rw [hL.length]; omega)]
      simp
  have hlen : ∀ k : Fin n, k ≠ last → (k : ℕ) < coords.length := by
    intro k hk
    rw [hL.clen]
    have := k.2
    have : k.val ≠ last.val := fun h => hk (Fin.ext h)
    omega
  have hq : ∀ k : Fin n, k ≠ last → (coords.getD k ([], 1)).1.length = w.natDegree ∧ 0 < (coords.getD k ([], 1)).2 := by
    intro k hk
    have := hlen k hk
    refine hL.pos _ ?_
    rw [List.getD_eq_getElem?_getD, List.getElem?_eq_getElem this]
    exact List.getElem_mem _
  have hw1 : w ≠ 1 := fun h => by rw [h] at hd; simp at hd
  have e3 : ∀ k : Fin n, k ≠ last → ∀ j, (((coords.getD k ([], 1)).1.getD j 0 : ℤ) : ℚ) =
      (Polynomial.C ((elim.getD w.natDegree 0 : ℚ) * (coords.getD k ([], 1)).2 * w.natDegree) * scaled w (c k)).coeff j := by
    intro k hk j
    rw [Polynomial.coeff_C_mul]
    by_cases hj : j < w.natDegree
    · refine hfrac _ _ _ ?_
      have := hc k hk j hj
      unfold coordErr at this
      exact_mod_cast sub_eq_zero.mp this
    · rw [getD_past (by rw [(hq k hk).1]; omega), Polynomial.coeff_eq_zero_of_natDegree_lt]
      · simp
      · have := Polynomial.natDegree_modByMonic_lt (c k * (Polynomial.C ((w.natDegree : ℚ)⁻¹) * Polynomial.derivative w)) hS.monic hw1
        rw [Polynomial.modByMonic_eq_mod _ hS.monic] at this
        unfold scaled
        omega
  have v1 := value_aeval (L := L) e1 (z last)
  have v2 := value_aeval (L := L) e2 (z last)
  have v3 := fun (k : Fin n) (hk : k ≠ last) => value_aeval (L := L) (e3 k hk) (z last)
  rw [map_mul, Polynomial.aeval_C] at v1 v2
  have hE' : algebraMap ℚ L (elim.getD w.natDegree 0 : ℚ) ≠ 0 := by
    intro h
    exact hE ((algebraMap ℚ L).injective (by rw [h, map_zero]))
  rw [hS.points z, v1, v2]
  have hroot : ∀ t : L, Polynomial.aeval t w = 0 → Polynomial.aeval t (Polynomial.derivative w) ≠ 0 := fun t ht => hsep.aeval_derivative_ne_zero ht
  have hcoord : Polynomial.aeval (z last) w = 0 → ∀ k : Fin n, k ≠ last →
      value (coords.getD k ([], 1)).1 (z last) / ((coords.getD k ([], 1)).2 * (algebraMap ℚ L (elim.getD w.natDegree 0 : ℚ) *
        Polynomial.aeval (z last) (Polynomial.derivative w))) = Polynomial.aeval (z last) (c k) := by
    intro ht k hk
    rw [v3 k hk, map_mul, Polynomial.aeval_C]
    have hsc : Polynomial.aeval (z last) (scaled w (c k)) =
        Polynomial.aeval (z last) (c k) * (algebraMap ℚ L ((w.natDegree : ℚ)⁻¹) * Polynomial.aeval (z last) (Polynomial.derivative w)) := by
      have := congrArg (Polynomial.aeval (z last)) (EuclideanDomain.div_add_mod (c k * (Polynomial.C ((w.natDegree : ℚ)⁻¹) * Polynomial.derivative w)) w)
      rw [map_add, map_mul, ht, zero_mul, zero_add, map_mul, map_mul, Polynomial.aeval_C] at this
      exact this
    rw [hsc]
    have h2 : ((coords.getD k ([], 1)).2 : L) ≠ 0 := by exact_mod_cast (hq k hk).2.ne'
    have h3 := hroot _ ht
    have h4 : (w.natDegree : L) ≠ 0 := by exact_mod_cast hd.ne'
    simp only [map_mul, map_inv₀, map_natCast, map_intCast] at hE' ⊢
    field_simp
  constructor
  · rintro ⟨h1, h2⟩
    refine ⟨by rw [h1, mul_zero], mul_ne_zero hE' (hroot _ h1), fun k hk => ?_⟩
    rw [h2 k hk, neg_div, hcoord h1 k hk]
  · rintro ⟨h1, -, h2⟩
    have h1 := (mul_eq_zero.mp h1).resolve_left hE'
    refine ⟨h1, fun k hk => ?_⟩
    rw [h2 k hk, neg_div, hcoord h1 k hk]

/-! ### The polynomials of the last computation -/

theorem row_vec {n : ℕ} (t : Text.Mon) : (fun i : Fin n => ((expoRow n t).getD i 0).toNat) = t.vec n := by
  funext i
  rw [← ofFn_vec, List.getD_eq_getElem?_getD, List.getElem?_ofFn]
  simp

theorem polyQ_row (n : ℕ) : ∃ F : List ((ℤ × ℤ) × List ℤ) → MvPolynomial (Fin n) ℚ, ∀ ts, polyQ n ts = F (qqPoly n ts) := by
  refine ⟨fun l => (l.map fun r => monomial (Finsupp.equivFunOnFinite.symm fun i : Fin n => (r.2.getD i 0).toNat) ((r.1.1 : ℚ) / (r.1.2 : ℚ))).sum, fun ts => ?_⟩
  unfold polyQ qqPoly
  simp only [List.map_map]
  congr 1
  apply List.map_congr_left
  intro t _
  rw [Function.comp_apply, row_vec]
  rfl

theorem polyMod_row (p : ℕ) [Fact p.Prime] (n : ℕ) : ∃ F : List ((ℤ × ℤ) × List ℤ) → MvPolynomial (Fin n) (ZMod p), ∀ ts, polyMod p n ts = F (qqPoly n ts) := by
  refine ⟨fun l => (l.map fun r => monomial (Finsupp.equivFunOnFinite.symm fun i : Fin n => (r.2.getD i 0).toNat) ((r.1.1 : ZMod p) / (r.1.2 : ZMod p))).sum,
    fun ts => ?_⟩
  unfold polyMod qqPoly
  simp only [List.map_map]
  congr 1
  apply List.map_congr_left
  intro t _
  rw [Function.comp_apply, row_vec]

theorem set_row {n : ℕ} {α : Type*} {F : List Text.Mon → α} (hF : ∃ F' : List ((ℤ × ℤ) × List ℤ) → α, ∀ ts, F ts = F' (qqPoly n ts))
    {tss tss' : List (List Text.Mon)} (h : tss.map (qqPoly n) = tss'.map (qqPoly n)) : { q | ∃ ts ∈ tss, q = F ts } = { q | ∃ ts ∈ tss', q = F ts } := by
  obtain ⟨F', hF⟩ := hF
  have key : ∀ tss : List (List Text.Mon), { q | ∃ ts ∈ tss, q = F ts } = { q | ∃ d ∈ tss.map (qqPoly n), q = F' d } := by
    intro tss
    ext q
    simp only [Set.mem_ofPred_eq, List.mem_map, exists_exists_and_eq_and, hF]
  rw [key, key, h]

theorem idealQ_congr {n : ℕ} {tss tss' : List (List Text.Mon)} (h : tss.map (qqPoly n) = tss'.map (qqPoly n)) : idealQ n tss = idealQ n tss' := by
  unfold idealQ
  rw [set_row (polyQ_row n) h]

theorem good_congr {n : ℕ} {m : MonomialOrder (Fin n)} {tss tss' : List (List Text.Mon)} (h : tss.map (qqPoly n) = tss'.map (qqPoly n)) {p : ℕ}
    (hg : GoodPrime m tss p) : GoodPrime m tss' p := by
  have hI := idealQ_congr h
  refine ⟨fun hp => ?_, hI ▸ hg.degree, hI ▸ hg.coord⟩
  obtain ⟨h1, h2⟩ := hg.lucky hp
  rw [hI, set_row (polyMod_row p n) h] at h2
  refine ⟨fun ts' ht' t' ht => ?_, h2⟩
  have h3 : qqPoly n ts' ∈ tss.map (qqPoly n) := h ▸ List.mem_map_of_mem ht'
  obtain ⟨ts, h4, h5⟩ := List.mem_map.mp h3
  have h6 : ((t'.numer, t'.denom), expoRow n t') ∈ qqPoly n ts := h5 ▸ List.mem_map_of_mem ht
  obtain ⟨t, h7, h8⟩ := List.mem_map.mp h6
  simp only [Prod.mk.injEq] at h8
  have := h1 ts h4 t h7
  rwa [h8.1.1, h8.1.2] at this

theorem rows_length {n n' : ℕ} {tss tss' : List (List Text.Mon)} (h : tss.map (qqPoly n) = tss'.map (qqPoly n')) (h0 : tss ≠ []) (hne : ∀ ts ∈ tss, ts ≠ []) :
    n = n' := by
  obtain ⟨ts, l, rfl⟩ := List.exists_cons_of_ne_nil h0
  obtain ⟨t, ts, rfl⟩ := List.exists_cons_of_ne_nil (hne ts List.mem_cons_self)
  have hm : qqPoly n (t :: ts) ∈ tss'.map (qqPoly n') := h ▸ List.mem_cons_self
  obtain ⟨ts', -, h1⟩ := List.mem_map.mp hm
  have h2 : ((t.numer, t.denom), expoRow n t) ∈ qqPoly n' ts' := h1 ▸ List.mem_cons_self
  obtain ⟨t', -, h3⟩ := List.mem_map.mp h2
  have := congrArg (fun r : (ℤ × ℤ) × List ℤ => r.2.length) h3
  simp only [← ofFn_vec, List.length_ofFn] at this
  exact this.symm

/-- The last computation of a run. -/
theorem run_partsQ {f : File} {names : List (List Char)} {tss : List (List Text.Mon)} (h : InputOkQ f names tss) {handling : ℕ} {us : ℤ} {nt prec gp : ℕ}
    {sys : List (List ((ℤ × ℤ) × List ℤ))} {ps : List ℕ} {out : List Char} (hrun : Run handling us nt prec gp f.text sys ps out) :
    ∃ (g : Gens) (chk : Bool) (a : AttQ) (tss' : List (List Text.Mon)) (τ : Fin names.length → Fin g.nvars), Variant names.length tss g.nvars τ tss' ∧
      readGensQ g.nvars g.exps g.mpz 0 g.lens = some sys ∧ sys = tss'.map (qqPoly g.nvars) ∧ StateOk names g τ ∧ AttemptQ us nt g chk ps a ∧ PrintsQ prec gp g a out ∧
      (∀ nums den, printedForm g = some (nums, den) → 0 < den) ∧ (∃ q, printedForm g = some q) ∧
      ∀ prec' gp' out', PrintsQ prec' gp' g a out' → Run handling us nt prec' gp' f.text sys ps out' := by
  obtain ⟨names', polys, g, chk, rs, a, hread, hloop, hsys, hatt, hpr⟩ := hrun
  have hread0 := hread
  rw [read_fileQ h.file] at hread
  have h1 := Option.some.inj hread
  injection h1 with e1 e2 e3
  injection e3 with e3
  subst e1 e3
  obtain ⟨hr, hacc⟩ := loop_runQ hloop
  obtain ⟨hinv, -⟩ := run_inv (start_gensOfQ (systemQ h)) rs hacc g hr
  obtain ⟨tss', τ, h1, h2, h3⟩ := state_arraysQ (systemQ h) hinv
  refine ⟨g, chk, a, tss', τ, h1, hsys, Option.some.inj (hsys.symm.trans h2), h3, hatt, hpr, fun nums den => form_den (start_gensOfQ (systemQ h)) rfl hloop,
    form_some (start_gensOfQ (systemQ h)) hinv, fun prec' gp' out' hp => ⟨_, _, g, chk, rs, a, hread0, hloop, hsys, hatt, hp⟩⟩

/-- The result for systems with finitely many solutions: `I` is the ideal of the input, `I'` the ideal of the last computation. -/
structure Result0 {n' : ℕ} (names : List (List Char)) (I : Ideal (MvPolynomial (Fin names.length) ℚ)) (I' : Ideal (MvPolynomial (Fin n') ℚ)) (ps : List ℕ) (d : ℕ)
    (pnames : List (List Char)) (elim denom : List ℤ) (coords : List (List ℤ × ℤ)) : Prop where
  rank : d = Module.finrank ℚ (MvPolynomial (Fin names.length) ℚ ⧸ I)
  nodup : pnames.Nodup
  mem : ∀ nm ∈ names, nm ∈ pnames
  count : pnames.length = names.length ∨ pnames.length = names.length + 1
  vars : pnames.length = n'
  lifted : elim.length = d + 1 → d + 1 < 2 ^ 32 → ∃ (last : Fin n') (w : Polynomial ℚ) (c : Fin n' → Polynomial ℚ), last.val = n' - 1 ∧
    Shape I' last w c ∧ w.Separable ∧ w.natDegree = d ∧ LiftOf ps w (fun k => if hk : k < n' then c ⟨k, hk⟩ else 0) (n' - 1) elim denom coords ∧
    ((∀ i, i ≤ d → elimErr w elim i = 0) → (∀ k, k ≠ last → ∀ j, j < d → coordErr w (c k) elim (coords.getD k ([], 1)) j = 0) →
      ∀ (L : Type) [Field L] [Algebra ℚ L] (z : Fin names.length → L), (∀ f ∈ I, aeval z f = 0) ↔ DescribedQ names pnames elim denom coords z)

theorem result_ok {names : List (List Char)} (hA : ['A'] ∉ names) {g : Gens} {τ2 : Fin names.length → Fin g.nvars} (hst : StateOk names g τ2)
    {I : Ideal (MvPolynomial (Fin names.length) ℚ)} {I' : Ideal (MvPolynomial (Fin g.nvars) ℚ)} (hrel : Rel I I' τ2) {ps : List ℕ} {d nsols : ℕ} {m : ParamLift.PSt}
    (hgood : AttGood I' ps (.ok d nsols m)) :
    Result0 names I I' ps d (g.vnames.map String.toList) (paramData g.nvars nsols m).elim (paramData g.nvars nsols m).denom
      ((paramData g.nvars nsols m).coords.getD []) := by
  obtain ⟨h1, h2, h3, h4, h5⟩ := hgood
  have hnd2 := hst.nodup hA
  have hname := hst.name
  have hpl' : (g.vnames.map String.toList).length = g.nvars := by rw [List.length_map, hst.len]
  have hnd' : (g.vnames.map String.toList).Nodup := hnd2.map fun a b hab => String.toList_inj.mp hab
  refine ⟨?_, hnd', ?_, by rw [hpl']; exact hst.count, hpl', ?_⟩
  · rw [h3, hrel.finrank]
  · intro nm hnm
    obtain ⟨i, hi, rfl⟩ := List.mem_iff_getElem.mp hnm
    refine List.mem_map.mpr ⟨_, List.mem_of_getElem? (hname ⟨i, hi⟩), ?_⟩
    simp
  · intro hel hsm
    obtain ⟨last, w, c, hl, hS, hsep, hwd, hlift⟩ := h5 (by simpa [paramData] using hel) hsm
    refine ⟨last, w, c, hl, hS, hsep, hwd, hlift, fun he hc L _ _ z => ?_⟩
    rw [← hwd] at he
    simp only [← hwd] at hc
    have h8 := lift_points (L := L) hl hS hsep (by omega) hlift he hc
    rw [hrel.zeros]
    unfold DescribedQ
    rw [hpl']
    have hpos := hst.pos
    constructor
    · rintro ⟨z', hz', hzz⟩
      obtain ⟨h9, h10, h11⟩ := (h8 z').mp hz'
      have hx : ∀ j, (hj : j < g.nvars) → (fun j => if hj : j < g.nvars then z' ⟨j, hj⟩ else 0) j = z' ⟨j, hj⟩ := fun j hj => dif_pos hj
      have hlast : (⟨g.nvars - 1, by omega⟩ : Fin g.nvars) = last := Fin.ext hl.symm
      refine ⟨fun j => if hj : j < g.nvars then z' ⟨j, hj⟩ else 0, ?_, ?_, ?_, ?_⟩
      · rw [hx _ (by omega), hlast]
        exact h9
      · rw [hx _ (by omega), hlast]
        exact h10
      · intro k hk
        rw [hx _ (by omega), hx _ (by omega), hlast]
        exact h11 ⟨k, by omega⟩ fun h => by rw [Fin.ext_iff] at h; simp only at h; omega
      · intro i
        refine ⟨τ2 i, ?_, ?_⟩
        · rw [List.getElem?_map, hname]
          simp
        · rw [hx _ (τ2 i).2]
          exact hzz i
    · rintro ⟨x, hx1, hx2, hx3, hx4⟩
      rw [← hl] at hx1 hx2 hx3
      refine ⟨fun j => x j, (h8 _).mpr ⟨hx1, hx2, ?_⟩, ?_⟩
      · intro k hk
        refine hx3 k ?_
        have := k.2
        have : k.val ≠ last.val := fun h => hk (Fin.ext h)
        omega
      · intro i
        obtain ⟨k, hk1, hk2⟩ := hx4 i
        rw [hk2]
        congr 1
        have e : (g.vnames.map String.toList)[(τ2 i).val]? = some names[i] := by
          rw [List.getElem?_map, hname]
          simp
        have hk3 : k < (g.vnames.map String.toList).length := by
          by_contra hcon
          rw [List.getElem?_eq_none (by omega)] at hk1
          exact absurd hk1 (by simp)
        exact (List.getElem?_inj hk3 hnd').mp (hk1.trans e.symm)

theorem run_casesQ {f : File} {names : List (List Char)} {tss : List (List Text.Mon)} (h : InputOkQ f names tss) (hA : ['A'] ∉ names)
    (hquote : ∀ nm ∈ names, '\'' ∉ nm) {handling : ℕ} {us : ℤ} {nt prec gp : ℕ}
    {sys : List (List ((ℤ × ℤ) × List ℤ))} {ps : List ℕ} {out : List Char} (hrun : Run handling us nt prec gp f.text sys ps out)
    {n' : ℕ} {τ : Fin names.length → Fin n'} {tss' : List (List Text.Mon)} (hv : Variant names.length tss n' τ tss') (hsys : sys = tss'.map (qqPoly n'))
    (hgp : ∀ p ∈ ps, GoodPrime (n := n') OKind.drl.mo tss' p) (hnd : ps.Nodup) :
    (idealQ names.length tss = ⊤ ∧ readOutput out = some (.list [.num (-1)])) ∨
    (¬ Module.Finite ℚ (MvPolynomial (Fin names.length) ℚ ⧸ idealQ names.length tss) ∧ readOutput out = some (.list [.num 1, .num n', .num (-1), .list []])) ∨
    (idealQ names.length tss ≠ ⊤ ∧ Module.Finite ℚ (MvPolynomial (Fin names.length) ℚ ⧸ idealQ names.length tss) ∧
      (1 ≤ gp → ∃ (d : ℕ) (pnames : List (List Char)) (form : List ℚ) (elim denom : List ℤ) (coords : List (List ℤ × ℤ)) (pts : List (List RealPoints.Box)),
        readOutput out = some (.list (.num 0 :: ratParam pnames.length d pnames form elim denom coords :: if gp = 1 then [points (boundsOf pts)] else [])) ∧
        Result0 names (idealQ names.length tss) (idealQ n' tss') ps d pnames elim denom coords)) := by
  obtain ⟨g, chk, a, tss2, τ2, hv2, hread, hs2, hst, hatt, hpr, hden, -⟩ := run_partsQ h hrun
  obtain ⟨ht, hte⟩ := variant_terms hv h.file.polys h.file.terms
  have hrows := hsys.symm.trans hs2
  obtain rfl := rows_length hrows ht hte
  have hgood : AttGood (idealQ g.nvars tss') ps a :=
    attempt_good hst.pos ht hte (variant_expanded hv h.expanded) (by rw [hread, hsys]) hatt hgp hnd
  have hrel : Rel (idealQ names.length tss) (idealQ g.nvars tss') τ2 := idealQ_congr hrows ▸ variant_rel hv2
  have hnm : ∀ s ∈ g.vnames, '\'' ∉ s.toList := by
    intro s hs
    rcases hst.mem s hs with rfl | ⟨nm, hnm, rfl⟩
    · decide
    · rw [String.toList_ofList]
      exact hquote nm hnm
  cases a with
  | empty =>
    obtain ⟨D, hD⟩ := hpr
    obtain ⟨w, hw, hread⟩ := C71_empty g 0 gp D []
    rw [hD] at hw
    obtain rfl := Option.some.inj hw
    exact Or.inl ⟨hrel.top.mpr hgood, hread⟩
  | positive =>
    obtain ⟨D, hD⟩ := hpr
    obtain ⟨w, hw, hread⟩ := C71_dim g (dim := 1) (dquot := -1) one_pos (by decide) gp D []
    rw [hD] at hw
    obtain rfl := Option.some.inj hw
    exact Or.inr (Or.inl ⟨hrel.finite.not.mpr hgood, hread⟩)
  | failed => exact absurd hpr (by simp [PrintsQ])
  | generic => exact absurd hpr (by simp [PrintsQ])
  | bad => exact absurd hpr (by simp [PrintsQ])
  | ok d nsols m =>
    have hres := result_ok hA hst hrel hgood
    obtain ⟨h1, h2, h3, h4, h5⟩ := hgood
    refine Or.inr (Or.inr ⟨hrel.top.not.mpr h1, hrel.finite.mpr h2, fun hgp1 => ?_⟩)
    obtain ⟨pts, -, hD⟩ := hpr
    obtain ⟨form, hread⟩ := display_rat hst.fc hgp1 h4 hnm hst.len hden hD
    have hpl' : (g.vnames.map String.toList).length = g.nvars := by rw [List.length_map, hst.len]
    have hct : ((paramData g.nvars nsols m).coords.getD []).take (g.nvars - 1) = (paramData g.nvars nsols m).coords.getD [] := by
      apply List.take_of_length_le
      simp [paramData]
    rw [hct] at hread
    exact ⟨d, g.vnames.map String.toList, form, _, _, _, pts, by rw [hpl']; exact hread, hres⟩

theorem good_all {n : ℕ} (m : MonomialOrder (Fin n)) {tss : List (List Text.Mon)} (hE : ∀ ts ∈ tss, ExpandedQ n ts) :
    ∃ N : ℤ, N ≠ 0 ∧ ∀ p : ℕ, ¬ (p : ℤ) ∣ N → GoodPrime m tss p := by
  obtain ⟨N, hN, hl⟩ := lucky_all m hE
  have key : ∀ last : Fin n, ∃ M : ℤ, M ≠ 0 ∧ ∀ p : ℕ, ¬ (p : ℤ) ∣ M → ∀ w c, Shape (idealQ n tss) last w c → (w.natDegree ≠ 0 → ¬ p ∣ w.natDegree) ∧
      ∀ k, k ≠ last → scaled w (c k) ≠ 0 → ¬ (p : ℤ) ∣ (scaled w (c k)).leadingCoeff.num := by
    intro last
    by_cases h : ∃ w c, Shape (idealQ n tss) last w c
    · obtain ⟨w, c, hS⟩ := h
      refine ⟨(if w.natDegree = 0 then 1 else (w.natDegree : ℤ)) *
        ∏ k : Fin n, (if scaled w (c k) = 0 then 1 else (scaled w (c k)).leadingCoeff.num), ?_, ?_⟩
      · refine mul_ne_zero ?_ (Finset.prod_ne_zero_iff.mpr fun k _ => ?_)
        · split_ifs with h0
          · exact one_ne_zero
          · exact_mod_cast h0
        · split_ifs with h0
          · exact one_ne_zero
          · exact Rat.num_ne_zero.mpr (Polynomial.leadingCoeff_ne_zero.mpr h0)
      · intro p hp w' c' hS'
        obtain ⟨rfl, hc⟩ := hS.unique hS'
        refine ⟨fun h0 hd => hp ?_, fun k hk h0 hd => hp ?_⟩
        · rw [if_neg h0]
          exact dvd_mul_of_dvd_left (by exact_mod_cast hd) _
        · rw [← hc k hk] at h0 hd
          refine dvd_mul_of_dvd_right (dvd_trans ?_ (Finset.dvd_prod_of_mem _ (Finset.mem_univ k))) _
          rw [if_neg h0]
          exact hd
    · exact ⟨1, one_ne_zero, fun p _ w c hS => absurd ⟨w, c, hS⟩ h⟩
  choose M hM1 hM2 using key
  refine ⟨N * ∏ k, M k, mul_ne_zero hN (Finset.prod_ne_zero_iff.mpr fun k _ => hM1 k), fun p hp => ?_⟩
  have hp2 : ∀ k, ¬ (p : ℤ) ∣ M k := fun k h => hp (dvd_mul_of_dvd_right (h.trans (Finset.dvd_prod_of_mem _ (Finset.mem_univ k))) _)
  exact ⟨hl p fun h => hp (dvd_mul_of_dvd_left h _), fun last w c hS => (hM2 last p (hp2 last) w c hS).1, fun last w c hS => (hM2 last p (hp2 last) w c hS).2⟩

end SolveQ

open Verif.F4 Verif.Spec Verif.SolveQ Verif.Spec.Solutions
open Verif.Spec.Output (readOutput Tree points)
open Verif.Spec.Text (File idealQ Variant GoodPrime)
open Verif.Parse (qqPoly)
open Verif.Props.EndToEndQq (InputOkQ)
open MvPolynomial

section
variable {f : File} {names : List (List Char)} {tss : List (List Text.Mon)} {handling : ℕ} {us : ℤ} {nt prec gp : ℕ}
  {sys : List (List ((ℤ × ℤ) × List ℤ))} {ps : List ℕ} {out : List Char}

/-- C80: the system of the last computation is the one of the file, with two variables exchanged or with an additional linear form. -/
theorem C80_system (h : InputOkQ f names tss) (hrun : SolveQ.Run handling us nt prec gp f.text sys ps out) :
    ∃ (n' : ℕ) (τ : Fin names.length → Fin n') (tss' : List (List Text.Mon)), Variant names.length tss n' τ tss' ∧ sys = tss'.map (qqPoly n') := by
  obtain ⟨g, -, -, tss', τ, h1, -, h2, -⟩ := SolveQ.run_partsQ h hrun
  exact ⟨g.nvars, τ, tss', h1, h2⟩

variable {n' : ℕ} {τ : Fin names.length → Fin n'} {tss' : List (List Text.Mon)}

/-- C80: each of these systems has the solutions of the file. -/
theorem C80_variant (hv : Variant names.length tss n' τ tss') (L : Type) [Field L] [Algebra ℚ L] (z : Fin names.length → L) :
    (∀ f ∈ idealQ names.length tss, aeval z f = 0) ↔ ∃ z' : Fin n' → L, (∀ f ∈ idealQ n' tss', aeval z' f = 0) ∧ ∀ i, z i = z' (τ i) :=
  (SolveQ.variant_rel hv).zeros z

/-- C80: all primes but finitely many are good for such a system. -/
theorem C80_good (h : InputOkQ f names tss) (hv : Variant names.length tss n' τ tss') :
    ∃ N : ℤ, N ≠ 0 ∧ ∀ p : ℕ, ¬ (p : ℤ) ∣ N → GoodPrime (n := n') OKind.drl.mo tss' p :=
  SolveQ.good_all _ (SolveQ.variant_expanded hv h.expanded)

/-- C80: for good primes `[-1]` is printed exactly if the polynomials generate the unit ideal. -/
theorem C80_empty (h : InputOkQ f names tss) (hA : ['A'] ∉ names) (hquote : ∀ nm ∈ names, '\'' ∉ nm)
    (hrun : SolveQ.Run handling us nt prec gp f.text sys ps out) (hgp0 : 1 ≤ gp) (hv : Variant names.length tss n' τ tss') (hsys : sys = tss'.map (qqPoly n'))
    (hgp : ∀ p ∈ ps, GoodPrime (n := n') OKind.drl.mo tss' p) (hnd : ps.Nodup) :
    readOutput out = some (.list [.num (-1)]) ↔ idealQ names.length tss = ⊤ := by
  have htop : idealQ names.length tss = ⊤ → Module.Finite ℚ (MvPolynomial (Fin names.length) ℚ ⧸ idealQ names.length tss) := by
    intro ht
    have : Subsingleton (MvPolynomial (Fin names.length) ℚ ⧸ idealQ names.length tss) := Ideal.Quotient.subsingleton_iff.mpr ht
    infer_instance
  rcases SolveQ.run_casesQ h hA hquote hrun hv hsys hgp hnd with ⟨h0, h1⟩ | ⟨h0, h1⟩ | ⟨h0, -, h1⟩
  · exact ⟨fun _ => h0, fun _ => h1⟩
  · rw [h1]
    exact ⟨fun h => by simp at h, fun h => absurd (htop h) h0⟩
  · obtain ⟨d, pn, fm, e, dn, c, pts, h1, -⟩ := h1 hgp0
    rw [h1]
    exact ⟨fun h => by simp at h, fun h => absurd h h0⟩

/-- C80: for good primes `[1, nvars, -1, []]` is printed exactly if the quotient ring has infinite dimension. -/
theorem C80_positive (h : InputOkQ f names tss) (hA : ['A'] ∉ names) (hquote : ∀ nm ∈ names, '\'' ∉ nm)
    (hrun : SolveQ.Run handling us nt prec gp f.text sys ps out) (hgp0 : 1 ≤ gp) (hv : Variant names.length tss n' τ tss') (hsys : sys = tss'.map (qqPoly n'))
    (hgp : ∀ p ∈ ps, GoodPrime (n := n') OKind.drl.mo tss' p) (hnd : ps.Nodup) :
    readOutput out = some (.list [.num 1, .num n', .num (-1), .list []]) ↔ ¬ Module.Finite ℚ (MvPolynomial (Fin names.length) ℚ ⧸ idealQ names.length tss) := by
  have htop : idealQ names.length tss = ⊤ → Module.Finite ℚ (MvPolynomial (Fin names.length) ℚ ⧸ idealQ names.length tss) := by
    intro ht
    have : Subsingleton (MvPolynomial (Fin names.length) ℚ ⧸ idealQ names.length tss) := Ideal.Quotient.subsingleton_iff.mpr ht
    infer_instance
  rcases SolveQ.run_casesQ h hA hquote hrun hv hsys hgp hnd with ⟨h0, h1⟩ | ⟨h0, h1⟩ | ⟨-, h0, h1⟩
  · rw [h1]
    exact ⟨fun h => by simp at h, fun h => absurd (htop h0) h⟩
  · exact ⟨fun _ => h0, fun _ => h1⟩
  · obtain ⟨d, pn, fm, e, dn, c, pts, h1, -⟩ := h1 hgp0
    rw [h1]
    exact ⟨fun h => by simp at h, fun h => absurd h0 h⟩

/-- C80 (partial): for good primes and finitely many solutions (at least one) a parametrization is printed; `d` is the dimension of the quotient ring.  If its
eliminating polynomial has degree `d`, the system is in shape position and the parametrization is lifted from images of the exact one modulo the primes; if it is
exact, it describes exactly the solutions of the file, over every field that contains the rationals.
Missing: exactness (the confirming prime may be passed by chance), parametrizations of smaller degree (the real points are in C81). -/
theorem C80_solutions_partial (h : InputOkQ f names tss) (hA : ['A'] ∉ names) (hquote : ∀ nm ∈ names, '\'' ∉ nm)
    (hrun : SolveQ.Run handling us nt prec gp f.text sys ps out) (hgp0 : 1 ≤ gp) (hv : Variant names.length tss n' τ tss') (hsys : sys = tss'.map (qqPoly n'))
    (hgp : ∀ p ∈ ps, GoodPrime (n := n') OKind.drl.mo tss' p) (hnd : ps.Nodup)
    (h0 : idealQ names.length tss ≠ ⊤) (hfin : Module.Finite ℚ (MvPolynomial (Fin names.length) ℚ ⧸ idealQ names.length tss)) :
    ∃ (d : ℕ) (pnames : List (List Char)) (form : List ℚ) (elim denom : List ℤ) (coords : List (List ℤ × ℤ)) (pts : List (List RealPoints.Box)),
      readOutput out = some (.list (.num 0 :: ratParam pnames.length d pnames form elim denom coords :: if gp = 1 then [points (boundsOf pts)] else [])) ∧
      SolveQ.Result0 names (idealQ names.length tss) (idealQ n' tss') ps d pnames elim denom coords := by
  rcases SolveQ.run_casesQ h hA hquote hrun hv hsys hgp hnd with ⟨h1, -⟩ | ⟨h1, -⟩ | ⟨-, -, h1⟩
  · exact absurd h1 h0
  · exact absurd hfin h1
  · exact h1 hgp0

end

end Verif.Props
