import Verif.Props.SolveQ
import Verif.Props.SolveExists
import Verif.Props.EndToEndQqEx

/-!
C80: a complete execution that prints a parametrization over the rationals.
-/
namespace Verif.Props
namespace SolveQ

open Verif.F4 Verif.Spec Verif.MulMatrix Verif.VarOrder Verif.Output Verif.SolveQ Verif.ParamLift Verif.Groebner Verif.EndToEndQq Verif.Fglm
open Verif.Lucky Verif.EndToEnd Verif.BM Verif.Hankel Verif.LinForms Verif.Import
open Verif.Props.EndToEndQq (InputOkQ read_fileQ import_allQ prime_w0 prime_w1 prime_w2 prime_w3 next_w0 next_w1 next_w2 next_w3 import_sorted)
open Verif.Spec.Text (File ExpandedQ idealQ polyQ polyMod Variant GoodPrime LuckyPrime)
open Verif.Parse (qqPoly)
open MvPolynomial

/-! ### The polynomial `x + a` -/

section
variable {K : Type*} [Field K]

/-- `x + c`. -/
noncomputable def lin (c : K) : MvPolynomial (Fin 1) K := monomial (fs ![1]) 1 + monomial (fs ![0]) c

theorem lin_degree (c : K) : OKind.drl.mo.degree (lin c) = fs ![1] ∧ OKind.drl.mo.leadingCoeff (lin c) = 1 := by
  classical
  have h : OKind.drl.mo.toSyn (fs (![0] : Pairs.Mon 1)) < OKind.drl.mo.toSyn (fs ![1]) := by
    rw [lt_iff]
    simp only [OKind.lt, Drl, DrlOn]
    decide
  have h1 : OKind.drl.mo.degree (monomial (fs ![1]) (1 : K)) = fs ![1] := by rw [MonomialOrder.degree_monomial, if_neg one_ne_zero]
  have h2 : OKind.drl.mo.toSyn (OKind.drl.mo.degree (monomial (fs ![0]) c)) < OKind.drl.mo.toSyn (OKind.drl.mo.degree (monomial (fs ![1]) (1 : K))) := by
    rw [h1]
    exact lt_of_le_of_lt (MonomialOrder.degree_monomial_le c) h
  have h3 := MonomialOrder.degree_add_of_lt h2
  refine ⟨h3.trans h1, ?_⟩
  rw [lin, MonomialOrder.leadingCoeff_add_of_lt h2, MonomialOrder.leadingCoeff_monomial]

theorem lin_groebner (c : K) : IsReducedGroebner OKind.drl.mo (Ideal.span {lin c}) {lin c} := by
  refine ⟨?_, ?_, ?_⟩
  · have := buchberger (m := OKind.drl.mo) (I := {()}) (F := fun _ : Unit => lin c) (fun i _ => (lin_degree c).2) (fun i _ j _ => rep_self _)
    simpa using this
  · rintro g rfl
    exact (lin_degree c).2
  · rintro g rfl g' rfl hne
    exact absurd rfl hne

theorem lin_inj {c d : K} (h : lin c = lin d) : c = d := by
  classical
  have := congrArg (coeff (fs ![0])) h
  have hne : ¬ fs (![1] : Pairs.Mon 1) = fs ![0] := fun h => absurd (congrFun (DFunLike.coe_injective.eq_iff.mpr h) 0) (by simp [fs])
  simpa [lin, coeff_monomial, if_neg hne] using this
end

/-- `x + a`. -/
def lG (a : ℕ) : List (Poly 1) := [[(![1], 1), (![0], a)]]

theorem lG_ok {p a : ℕ} (hp : p.Prime) (h0 : 0 < a) (ha : a < p) : ∀ f ∈ lG a, PolyOk .drl p f := by
  intro f hf
  obtain rfl := List.mem_singleton.mp hf
  refine ⟨⟨_, rfl⟩, ?_, ?_⟩
  · simp only [OKind.lt, Drl, DrlOn, List.map_cons, List.map_nil]
    decide
  · intro t ht
    simp only [List.mem_cons, List.not_mem_nil, or_false] at ht
    rcases ht with rfl | rfl
    · exact ⟨one_pos, hp.one_lt⟩
    · exact ⟨h0, ha⟩

theorem lG_set (p a : ℕ) [Fact p.Prime] : { g | ∃ f ∈ lG a, g = toMv p f } = {lin (a : ZMod p)} := by
  ext g
  simp [lG, toMv_cons, toMv_nil, lin]

theorem lG_groebner (p a : ℕ) [Fact p.Prime] : IsReducedGroebner OKind.drl.mo (idl p (lG a)) { g | ∃ f ∈ lG a, g = toMv p f } := by
  rw [idl, lG_set]
  exact lin_groebner _

/-- Every reduced basis of the ideal is this one. -/
theorem lG_unique {p a : ℕ} [hp : Fact p.Prime] (h0 : 0 < a) (ha : a < p) {G : List (Poly 1)}
    (h : IsReducedGroebner OKind.drl.mo (idl p (lG a)) { g | ∃ f ∈ G, g = toMv p f }) (hok : ∀ f ∈ G, PolyOk .drl p f)
    (hs : G.Pairwise fun a b => OKind.drl.lt (F4.lead a) (F4.lead b)) : G = lG a := by
  have hset := reduced_unique h (lG_groebner p a)
  have hall : ∀ f ∈ G, f = [(![1], 1), (![0], a)] := by
    intro f hf
    obtain ⟨g, hg, he⟩ := hset.subset ⟨f, hf, rfl⟩
    obtain rfl := List.mem_singleton.mp hg
    exact toMv_injOn (hok f hf) (lG_ok hp.out h0 ha _ hg) he
  match G, hs with
  | [], _ =>
    obtain ⟨g, hg, -⟩ := hset.symm.subset ⟨_, List.mem_singleton.mpr rfl, rfl⟩
    exact absurd hg (by simp)
  | [f], _ => rw [lG, hall f (by simp)]
  | f :: g :: l, hs =>
    have := (List.pairwise_cons.mp hs).1 g (by simp)
    rw [hall f (by simp), hall g (by simp)] at this
    exact absurd this (OKind.drl.adm.irrefl _)

theorem learn_lG {C : F4.Cfg 1} (hC : CfgOk C) (hO : C.ord = .drl) {a : ℕ} (h0 : 0 < a) (ha : a < C.p) {tr : Tr 1} {G : List (Poly 1)}
    (h : Learn C (lG a) tr G) : G = lG a := by
  have : Fact C.p.Prime := ⟨hC.prime⟩
  obtain ⟨g1, g2, g3⟩ := (C66_learn hC (F := lG a) (by rw [hO]; exact lG_ok hC.prime h0 ha)).2 tr G h
  rw [hO] at g1 g2 g3
  exact lG_unique h0 ha g1 g2 g3

theorem apply_lG {C C' : F4.Cfg 1} (hC : CfgOk C) (hC' : CfgOk C') (hO : C.ord = .drl) (hO' : C'.ord = .drl) {a a' : ℕ} (h0 : 0 < a) (ha : a < C.p)
    (h0' : 0 < a') (ha' : a' < C'.p) {tr : Tr 1} {G : List (Poly 1)} (h : Learn C (lG a) tr G) : Apply C' (lG a') tr (some (lG a')) := by
  have : Fact C.p.Prime := ⟨hC.prime⟩
  have : Fact C'.p.Prime := ⟨hC'.prime⟩
  have hF : ∀ f ∈ lG a, PolyOk C.ord C.p f := by rw [hO]; exact lG_ok hC.prime h0 ha
  have hF' : ∀ f ∈ lG a', PolyOk C'.ord C'.p f := by rw [hO']; exact lG_ok hC'.prime h0' ha'
  have hl : (lG a').map F4.lead = (lG a).map F4.lead := rfl
  have hG := learn_lG hC hO h0 ha h
  subst hG
  obtain ⟨r, hr⟩ := C66_total hC hC' hF hF' hl h
  have : ∃ G', r = some G' := by
    cases hr with
    | ok els G' _ _ => exact ⟨G', rfl⟩
    | bad hb =>
      exfalso
      obtain ⟨s, _, h2, _⟩ := learn_final hC hF h
      have hT := (trace_nil hC hF (by rw [hO]; exact (lG_groebner _ _).1) h2).1
      rw [Tr.rounds, if_pos hT] at hb
      cases hb with
      | bad hb => exact absurd (aRound_empty hC' hF' hb) (by simp)
      | step _ hb => cases hb
  obtain ⟨G', rfl⟩ := this
  obtain ⟨s1, s2⟩ := C66_sound hC hC' (hO'.trans hO.symm) hF hF' hl h hr
  rw [hO] at s2
  have hlen : G'.length = 1 := by simpa [lG] using congrArg List.length s1
  obtain ⟨g, rfl⟩ := List.length_eq_one_iff.mp hlen
  have l1 : F4.lead g = ![1] := by simpa [lG, F4.lead] using s1
  obtain ⟨o1, o2, -⟩ := s2 g (by simp)
  suffices [g] = lG a' by rw [← this]; rwa [← this] at hr
  refine lG_unique h0' ha' ?_ (by simpa using o1) (List.pairwise_singleton _ _)
  have e : { x | ∃ f ∈ [g], x = toMv C'.p f } = {toMv C'.p g} := by ext; simp
  rw [e]
  refine ⟨⟨by simpa using o2, ?_⟩, by simpa using o1.monic, ?_⟩
  · intro f hf hf0
    obtain ⟨x, hx, -, hle⟩ := (lG_groebner C'.p a').1.2 f hf hf0
    rw [lG_set] at hx
    obtain rfl := hx
    refine ⟨_, rfl, ?_, ?_⟩
    · intro h0
      have := o1.monic
      rw [h0, MonomialOrder.leadingCoeff_zero] at this
      exact zero_ne_one this
    · rwa [o1.degree, l1, ← (lin_degree (a' : ZMod C'.p)).1]
  · rintro x rfl y rfl hne
    exact absurd rfl hne

/-! ### The parametrization modulo a prime -/

theorem lG_basis (a : ℕ) : Hilbert.monomialBasis ((lG a).map F4.lead) 10 = .done [![0]] := by
  show Hilbert.monomialBasis [(![1] : Pairs.Mon 1)] 10 = _
  have h : (match Hilbert.monomialBasis [(![1] : Pairs.Mon 1)] 10 with | .done l => decide (l = [![0]]) | _ => false) = true := by decide +kernel
  split at h
  · rename_i l hl
    rw [hl, of_decide_eq_true h]
  · cases h

/-- The multiplication matrix. -/
def lM (p a : ℕ) : MMat := ⟨1, [], [(0, [p - a], dstOf [p - a])]⟩

theorem lM_build (p a : ℕ) (us : ℤ) (nf : List (Poly 1) → List (Option (Poly 1))) : build p (0 : _root_.Fin 1) us (lG a) [![0]] nf = .ok (lM p a) := by
  rfl

theorem l_extra (a : ℕ) : MatApply.extraOf (0 : _root_.Fin 1) ((lG a).map F4.lead) [![0]] = .ok [] := by
  rfl

section
variable {p a : ℕ} [hp : Fact p.Prime]

/-- The minimal polynomial is square-free. -/
theorem minPoly_sqf {hg : Polynomial (ZMod p) → Polynomial (ZMod p) → HM (ZMod p)} (hhg : HgcdOk hg) (pts : List (ZMod p)) :
    ∃ sqf, SqfOk (minPoly hg pts 1) sqf := by
  have h1 : (minPoly hg pts 1).natDegree = 1 := by
    have := Solve.minPoly_one hhg pts [(minPoly hg pts 1, 1)]
    unfold sqfPart at this
    split_ifs at this
    · exact this
    · simpa using this
  have hm : (minPoly hg pts 1).Monic := by
    have hfin := emgcd_fin hhg (pts.take (2 * 1))
    unfold minPoly
    simp only
    split_ifs with h0
    · exact Polynomial.monic_X
    · unfold elimPoly
      simp only
      rw [mul_comm]
      exact Polynomial.monic_mul_leadingCoeff_inv hfin.v1
  refine ⟨[(minPoly hg pts 1, 1)], ⟨by simp, by simp, by simpa using hm, ?_, List.pairwise_singleton _ _⟩⟩
  intro q hq
  obtain rfl := List.mem_singleton.mp hq
  exact (Polynomial.irreducible_of_degree_eq_one (Polynomial.degree_eq_iff_natDegree_eq_of_pos one_pos |>.mpr h1)).squarefree

theorem l_lin {lm : ℕ → ℕ → ℕ} (h : lm 0 0 = 1) : linVars 1 1 lm = (Function.update (fun _ => 0) 0 1, 1) := by
  simp [linVars, linStep, h]

theorem l_params (inv : Hankel.Inv (ZMod p)) (res : ℕ → ℕ → ZMod p) (slot : (ℕ → ℕ) → ℕ → ℕ) {lm : ℕ → ℕ → ℕ} (h : lm 0 0 = 1)
    {polys : ℕ → List ((ℕ → ℕ) × ZMod p)} {x y : ℕ → ℕ} {b : ZMod p} (hP : polys 0 = [(x, 1), (y, b)]) (elim : Polynomial (ZMod p)) :
    ∃ cs, params inv 1 res (linVars 1 1 lm).2 (linVars 1 1 lm).1 (rows slot 1 polys (linVars 1 1 lm).1) 1 elim = some (Polynomial.X + Polynomial.C b, cs) := by
  rw [l_lin h]
  simp [params, setLinear, rows, rowStep, hP, writeFull, List.range_succ]

theorem l_outcome (h2 : p ≠ 2) (hp1 : p < 1518500213) (h0 : 0 < a) (ha : a < p) (us : ℤ) :
    ∃ cs, Solve.Outcome p us true (lG a) (.ok 1 (Polynomial.X + Polynomial.C (a : ZMod p)) cs) := by
  obtain ⟨hg, hhg⟩ := hgcd_exists (K := ZMod p)
  obtain ⟨xg, hxg⟩ := xgcdOk_exists (ZMod p)
  obtain ⟨nf, hnf⟩ := Solve.nf_exists (p := p) hp.out (by omega) (lG_ok hp.out h0 ha)
  obtain ⟨sqf, hsqf⟩ := minPoly_sqf hhg (((lM p a).toMat p).pts (fun _ => 0) (fun _ => 0))
  obtain ⟨cs, hr⟩ := l_params (p := p) (invert hg (((lM p a).toMat p).pts (fun _ => 0) (fun _ => 0)) 1) (((lM p a).toMat p).res (fun _ => 0) (fun _ => 0))
    slotCheck (lm := fun i j => Orders.ext (Spec.lead (fieldPoly p ((lG a).getD i []))) j) rfl
    (polys := fun j => (fieldPoly p ((lG a).getD j [])).map fun t => (Orders.setEv 1 0 (Orders.ext t.1) (fun _ => 0), t.2)) (x := Orders.setEv 1 0 (Orders.ext ![1]) (fun _ => 0))
    (y := Orders.setEv 1 0 (Orders.ext ![0]) (fun _ => 0)) (b := (a : ZMod p))
    (by simp [lG, fieldPoly]) (sqfPart (minPoly hg (((lM p a).toMat p).pts (fun _ => 0) (fun _ => 0)) 1) 1 sqf)
  refine ⟨cs, ?_⟩
  rw [Solve.Outcome, if_neg (by simp [lG, F4.lead]), if_neg (by show ¬ Hilbert.hasDimensionZero [(![1] : Pairs.Mon 1)] = false; decide)]
  refine ⟨10, [![0]], nf, 0, lG_basis a, hnf, rfl, Or.inr ⟨lM p a, lM_build p a us nf, h2, hp1, fun _ => 0, fun _ => 0, fun _ => 0, hg, sqf, xg, fun _ => 1,
    hhg, hsqf, hxg, by simp, ?_⟩⟩
  exact Solve.fglm_shape (Solve.minPoly_one hhg _ _) hr

theorem l_later (hp1 : p < 2 ^ 31) (h0 : 0 < a) (ha : a < p) {b : ℕ} {img : Img}
    (himg : ∀ cs, IsImg p (Polynomial.X + Polynomial.C (a : ZMod p)) cs 1 img) : LaterImg 1 ((lG b).map F4.lead) [![0]] p (lG a) (some img) := by
  obtain ⟨hg, hhg⟩ := hgcd_exists (K := ZMod p)
  obtain ⟨nf, hnf⟩ := Solve.nf_exists (p := p) hp.out hp1 (lG_ok hp.out h0 ha)
  obtain ⟨sqf, hsqf⟩ := minPoly_sqf hhg (((lM p a).toMat p).pts (fun _ => 0) (fun _ => 0))
  obtain ⟨cs, hr⟩ := l_params (p := p) (invert hg (((lM p a).toMat p).pts (fun _ => 0) (fun _ => 0)) 1) (((lM p a).toMat p).res (fun _ => 0) (fun _ => 0))
    (slotSet (Orders.evl 1 0) (Orders.ebl 0)) (lm := fun i j => Orders.ext (((lG b).map F4.lead).getD i 0) j) rfl
    (polys := fun j => (fieldPoly p ((lG a).getD j [])).map fun t => (Orders.setEv 1 0 (Orders.ext t.1) (fun _ => 0), t.2)) (x := Orders.setEv 1 0 (Orders.ext ![1]) (fun _ => 0))
    (y := Orders.setEv 1 0 (Orders.ext ![0]) (fun _ => 0)) (b := (a : ZMod p))
    (by simp [lG, fieldPoly]) (sqfPart (minPoly hg (((lM p a).toMat p).pts (fun _ => 0) (fun _ => 0)) 1) 1 sqf)
  rw [LaterImg, if_neg (by simp [lG, F4.lead])]
  have hd := Solve.minPoly_one hhg (((lM p a).toMat p).pts (fun _ => 0) (fun _ => 0)) sqf
  refine ⟨hp, nf, 0, [], lM p a, fun _ => 0, fun _ => 0, fun _ => 0, hg, sqf, hnf, rfl, l_extra b, rfl, hhg, hsqf, ?_⟩
  rw [if_neg (fun h => h hd)]
  split_ifs with hc
  · exact ⟨_, img, hr, himg cs, rfl⟩
  · exact absurd hd hc

/-- The image modulo `p`: `x + (p - 1) / 2`. -/
def lImg (p : ℕ) : Img := ⟨p, 2, fun i => if i = 0 then (p - 1) / 2 else 1, fun _ => 0, fun _ _ => 0⟩

theorem lImg_is (cs : ℕ → Polynomial (ZMod p)) : IsImg p (Polynomial.X + Polynomial.C (((p - 1) / 2 : ℕ) : ZMod p)) cs 1 (lImg p) := by
  have hlen : Lift.len (Polynomial.X + Polynomial.C (((p - 1) / 2 : ℕ) : ZMod p)) = 2 := by
    rw [Lift.len, if_neg (Polynomial.X_add_C_ne_zero _), Polynomial.natDegree_X_add_C]
  have hz : Lift.len (0 : Polynomial (ZMod p)) = 0 := by simp [Lift.len]
  refine ⟨rfl, hlen.symm, ?_, ?_, ?_⟩
  · intro i hi
    have hi : i < 2 := hi
    have h1 := hp.out.one_lt
    interval_cases i
    · simp only [lImg, if_pos, Polynomial.coeff_add, Polynomial.coeff_X_zero, Polynomial.coeff_C_zero, zero_add]
      rw [ZMod.val_natCast, Nat.mod_eq_of_lt (by omega)]
    · have : Fact (1 < p) := ⟨h1⟩
      simp [lImg]
      rw [ZMod.val_one]
  · intro k
    simp [lImg, Lift.normalize, hz]
  · intro k j hj
    exact absurd hj (Nat.not_lt_zero _)

end

/-! ### The file -/

/-- `2 x - 1`. -/
def lTerms : List (List Text.Mon) := [[⟨false, some ⟨['2'], none⟩, [⟨0, none⟩]⟩, ⟨true, some ⟨['1'], none⟩, []⟩]]
def lNames : List (List Char) := [['x']]
def lFile : File := ⟨lNames, ['0'], ["2*x-1".toList], ['\n']⟩

example : lFile.text = "x\n0\n2*x-1\n".toList := by decide +kernel

theorem lFile_ok : InputOkQ lFile lNames lTerms where
  file := by
    refine ⟨?_, by decide, by decide, .cons ⟨[], [], rfl, by simp, by simp⟩ .nil, by decide, ⟨['0'], [], rfl, ⟨by decide, by decide⟩, by decide, by simp⟩,
      by decide, by decide, .cons ⟨by decide +kernel, by decide +kernel, by decide +kernel⟩ .nil, by decide, by decide, ?_, by unfold Text.Fits; decide +kernel⟩
    · have h : ∀ nm ∈ lNames, nm ≠ [] ∧ (∀ c ∈ nm.head?, c.isDigit = false) ∧
          ∀ c ∈ nm, c ∉ ['*', '^', '+', '-', ','] ∧ Text.isSpace c = false := by decide
      exact fun nm hm => ⟨(h nm hm).1, fun c l hcl => (h nm hm).2.1 c (by rw [hcl]; rfl), (h nm hm).2.2⟩
    · have h2 : ∀ ts ∈ lTerms, ∀ t ∈ ts, (t.num ≠ none ∨ t.fs ≠ []) ∧
          (∀ a ∈ t.num, (a.n ≠ [] ∧ ∀ c ∈ a.n, c.isDigit = true) ∧ a.d = none) ∧ (∀ f ∈ t.fs, f.v < lNames.length) ∧
          (∀ f ∈ t.fs, ∀ ds ∈ f.e, (ds ≠ [] ∧ ∀ c ∈ ds, c.isDigit = true) ∧ Text.dec ds < 2 ^ 31) ∧ (t.fs.map (·.v)).Nodup := by decide +kernel
      intro ts hts t ht
      obtain ⟨h1, h2, h3, h4, h5⟩ := h2 ts hts t ht
      exact ⟨h1, fun a ha => ⟨(h2 a ha).1, fun d hd => absurd hd (by rw [(h2 a ha).2]; simp)⟩, h3, h4, h5⟩
  expanded := by
    have h4 : ∀ ts ∈ lTerms, (∀ t ∈ ts, t.numer ≠ 0) ∧ (∀ t ∈ ts, t.denom ≠ 0) ∧ (ts.map (Text.Mon.vec 1)).Nodup ∧
      ∀ t ∈ ts, ∑ i, t.vec 1 i < 65536 := by decide +kernel
    exact fun ts hts => ⟨(h4 ts hts).1, (h4 ts hts).2.1, (h4 ts hts).2.2.1, (h4 ts hts).2.2.2⟩

def lZ : List (List ((_root_.Fin (0 + 1) → ℕ) × ℤ)) := [[(![1], 2), (![0], -1)]]

theorem lZ_input : EndToEndQq.Input 0 1 (lTerms.map (qqPoly (0 + 1))) lZ := by
  have ht : lTerms.map (intTerms (0 + 1)) = lZ := by decide +kernel
  refine ⟨lZ, lZ, ?_, .refl _, by decide +kernel⟩
  rw [← ht, List.forall₂_map_left_iff, List.forall₂_map_right_iff, List.forall₂_same]
  intro ts hts
  refine import_sorted (by norm_num) (lFile_ok.expanded ts hts) ?_
  have : intTerms (0 + 1) ts ∈ lZ := by
    rw [← ht]
    exact List.mem_map_of_mem hts
  rw [List.mem_singleton.mp this]
  simp only [EndToEnd.ordKind, if_true, OKind.lt, Drl, DrlOn, List.map_cons, List.map_nil]
  decide

/-! ### The execution -/

def lRounds : List (Bool × List (ℕ × Option Img)) := [1073741831, 1073741833, 1073741839].map fun p => (true, [(p, some (lImg p))])
def lCfg : ParamLift.Cfg := ⟨1, 0, 0, 0, exExt.inv, 0⟩

def isRunning : Lift.Outcome (Option PSt) → Bool
  | .running _ => true
  | _ => false

def doneWith : Lift.Outcome (Option PSt) → Option (List ℤ)
  | .done s => s.m.map fun m => [m.E 0, m.E 1]
  | _ => none

theorem l_running (k : ℕ) (hk : k < 3) : isRunning (ParamLift.run lCfg (lImg 1073741827) (lRounds.take k)) = true := by
  interval_cases k <;> decide +kernel

theorem l_done : doneWith (ParamLift.run lCfg (lImg 1073741827) lRounds) = some [-1, 2] := by
  decide +kernel

theorem l_mod : ∀ p ∈ [1073741827, 1073741831, 1073741833, 1073741839], modGens p lZ = some (lG ((p - 1) / 2)) := by decide +kernel

/-- The primes of the execution. -/
theorem l_primes : ∀ p ∈ [1073741827, 1073741831, 1073741833, 1073741839], p.Prime ∧ p ≠ 2 ∧ p < 1518500213 := by
  simp only [List.mem_cons, List.not_mem_nil, or_false]
  rintro p (rfl | rfl | rfl | rfl)
  · exact ⟨prime_w0, by norm_num, by norm_num⟩
  · exact ⟨prime_w1, by norm_num, by norm_num⟩
  · exact ⟨prime_w2, by norm_num, by norm_num⟩
  · exact ⟨prime_w3, by norm_num, by norm_num⟩

theorem l_attempt (us : ℤ) : ∃ m, AttemptQ us 1 (gensOfQ lNames (lTerms.map (qqPoly 1))) true [1073741827, 1073741831, 1073741833, 1073741839] (.ok 1 1 m) ∧
    (paramData 1 1 m).elim = [-1, 2] := by
  have h0 : FirstPrime lZ 1073741827 := ⟨2 ^ 30, le_rfl, by norm_num, next_w0, by decide +kernel⟩
  have hcfg : ∀ q ∈ [1073741827, 1073741831, 1073741833, 1073741839], CfgOk (stdCfg (n := 1) .drl q 1) := fun q hq =>
    stdCfg_ok _ (l_primes q hq).1 (by have := (l_primes q hq).2.2; omega) one_pos
  have hsort : ∀ q ∈ [1073741827, 1073741831, 1073741833, 1073741839], Sorts (stdCfg (n := 1) .drl q 1) := fun q hq =>
    ⟨(hcfg q hq).mnsel, (hcfg q hq).upd, (hcfg q hq).sel, (hcfg q hq).sorted⟩
  have hp : Fact (Nat.Prime 1073741827) := ⟨prime_w0⟩
  obtain ⟨tr, G, hL⟩ := (C66_learn (hcfg 1073741827 (by decide)) (F := lG ((1073741827 - 1) / 2)) (lG_ok prime_w0 (by norm_num) (by show _ < 1073741827; norm_num))).1 (by simp [lG])
  obtain rfl := learn_lG (hcfg 1073741827 (by decide)) rfl (by norm_num) (by show _ < 1073741827; norm_num) hL
  obtain ⟨cs, ho⟩ := l_outcome (p := 1073741827) (a := (1073741827 - 1) / 2) (by norm_num) (by norm_num) (by norm_num) (by norm_num) us
  have hth : ∀ q q', q' ∈ [1073741831, 1073741833, 1073741839] → Primes.nextPrime q = some q' →
      Threads 1 lZ tr 1073741827 ((lG ((1073741827 - 1) / 2)).map F4.lead) [![0]] false q [(q', some (lImg q'))] q' := by
    intro q q' hq' hn
    have hm : q' ∈ [1073741827, 1073741831, 1073741833, 1073741839] := List.mem_cons_of_mem _ hq'
    have hF : Fact q'.Prime := ⟨(l_primes q' hm).1⟩
    have hb : isBad q' lZ = false ∧ q' ≠ 1073741827 ∧ ¬ q' ≥ 1303905299 ∧ 0 < (q' - 1) / 2 ∧ (q' - 1) / 2 < q' := by
      have hall : ∀ q' ∈ [1073741831, 1073741833, 1073741839],
          isBad q' lZ = false ∧ q' ≠ 1073741827 ∧ ¬ q' ≥ 1303905299 ∧ 0 < (q' - 1) / 2 ∧ (q' - 1) / 2 < q' := by decide +kernel
      exact hall q' hq'
    have happ := apply_lG (hcfg 1073741827 (by decide)) (hcfg q' hm) rfl rfl (by norm_num) (by show _ < 1073741827; norm_num) hb.2.2.2.1 hb.2.2.2.2 hL
    refine .image (G := lG ((q' - 1) / 2)) (.here ?_ hb.1 hb.2.1) ⟨stdCfg .drl q' 1, _, l_mod q' hm, rfl, rfl, hsort q' hm, happ⟩ ?_ (.nil _)
    · rw [stepPrime, hn]
      exact if_neg hb.2.2.1
    · exact l_later (by have := (l_primes q' hm).2.2; omega) hb.2.2.2.1 hb.2.2.2.2 lImg_is
  have hdone := l_done
  cases hr : ParamLift.run lCfg (lImg 1073741827) lRounds with
  | running s => rw [hr] at hdone; cases hdone
  | fail => rw [hr] at hdone; cases hdone
  | done s =>
    rw [hr] at hdone
    obtain ⟨m, hm, hE⟩ := Option.map_eq_some_iff.mp hdone
    refine ⟨m, ?_, by rw [← hE]; rfl⟩
    · refine ⟨_, _, _, lZ, 1073741827, hp, tr, lG ((1073741827 - 1) / 2), _, by decide +kernel, import_allQ lFile_ok.file.polys lFile_ok.expanded, lZ_input, h0,
        ⟨stdCfg .drl 1073741827 1, _, l_mod _ (by decide), rfl, rfl, hsort _ (by decide), hL⟩, ho, ?_⟩
      refine ⟨lImg 1073741827, exExt.inv, 0, 10, [![0]], lRounds, lImg_is cs, exExt_inv, lG_basis _, ?_, ?_, by decide, .inl ⟨s, m, hr, hm, rfl⟩⟩
      · exact .cons (err := false) (hth _ _ (by decide) next_w1) rfl (by simp) (.cons (err := false) (hth _ _ (by decide) next_w2) rfl (by simp)
          (.cons (err := false) (hth _ _ (by decide) next_w3) rfl (by simp) (.nil _)))
      · intro k hk
        have := l_running k hk
        show ∃ s, ParamLift.run lCfg (lImg 1073741827) (lRounds.take k) = .running s
        cases hk' : ParamLift.run lCfg (lImg 1073741827) (lRounds.take k) with
        | running s => exact ⟨s, rfl⟩
        | fail => rw [hk'] at this; cases this
        | done s => rw [hk'] at this; cases this

theorem l_run : ∃ out, SolveQ.Run 2 3 1 128 2 lFile.text (lTerms.map (qqPoly 1)) [1073741827, 1073741831, 1073741833, 1073741839] out ∧
    ∃ form denom coords, Spec.Output.readOutput out = some (.list [.num 0, ratParam 1 1 lNames form [-1, 2] denom coords]) := by
  obtain ⟨m, hatt, hE⟩ := l_attempt 3
  obtain ⟨out, o1, o2⟩ := C71_param (g := gensOfQ lNames (lTerms.map (qqPoly 1))) rfl (dquot := 1) (by norm_num) (gp := 2) (by norm_num)
    (D := paramData 1 1 m) ⟨by decide, by decide, fun _ l _ => Nat.zero_le _⟩ (nums := [1]) (den := 1) (by decide +kernel) (by norm_num) (by decide +kernel) []
  refine ⟨out, ⟨lNames, _, _, true, [], .ok 1 1 m, read_fileQ lFile_ok.file, .start, by decide +kernel, hatt, ⟨[], rfl, o1⟩⟩,
    [1].map (fun a : ℤ => (a : ℚ) / ((1 : ℤ) : ℚ)), (paramData 1 1 m).denom, [], ?_⟩
  rw [o2, hE]
  rfl

/-! ### The primes are good -/

theorem lTerms_poly (K : Type) [Field K] (h2 : (2 : K) ≠ 0) : ∃ u : (MvPolynomial (_root_.Fin 1) K)ˣ,
    { q : MvPolynomial (_root_.Fin 1) K | ∃ ts ∈ lTerms, q = (ts.map fun t : Text.Mon =>
      monomial (Finsupp.equivFunOnFinite.symm (t.vec 1)) ((t.numer : K) / (t.denom : K))).sum } = {u.1 * lin (-1 / 2 : K)} := by
  have v1 : (Text.Mon.vec 1 ⟨false, some ⟨['2'], none⟩, [⟨0, none⟩]⟩) = ![1] := by decide +kernel
  have v2 : (Text.Mon.vec 1 ⟨true, some ⟨['1'], none⟩, []⟩) = ![0] := by decide +kernel
  have n1 : (Text.Mon.numer ⟨false, some ⟨['2'], none⟩, [⟨0, none⟩]⟩) = 2 := by decide +kernel
  have n2 : (Text.Mon.numer ⟨true, some ⟨['1'], none⟩, []⟩) = -1 := by decide +kernel
  have d1 : (Text.Mon.denom ⟨false, some ⟨['2'], none⟩, [⟨0, none⟩]⟩) = 1 := by decide +kernel
  have d2 : (Text.Mon.denom ⟨true, some ⟨['1'], none⟩, []⟩) = 1 := by decide +kernel
  obtain ⟨u, hu⟩ : IsUnit (C (σ := _root_.Fin 1) (2 : K)) := (isUnit_iff_ne_zero.mpr h2).map C
  refine ⟨u, ?_⟩
  rw [hu]
  ext q
  simp only [lTerms, List.mem_singleton, exists_eq_left, List.map_cons, List.map_nil, List.sum_cons, List.sum_nil, v1, v2, n1, n2, d1, d2,
    Set.mem_ofPred_eq, Set.mem_singleton_iff, lin, mul_add, C_mul_monomial, fs]
  rw [mul_div_cancel₀ _ h2]
  simp

theorem l_reduce (p : ℕ) [hp : Fact p.Prime] (h2 : p ≠ 2) : reduceMod p (lin (-1 / 2 : ℚ)) = lin (-1 / 2 : ZMod p) ∧ IntegralAt p (lin (-1 / 2 : ℚ)) := by
  classical
  have hc : ∀ {K : Type} [Field K] (c : K) (u : Pairs.Mon 1), coeff (fs u) (lin c) = if u 0 = 1 then 1 else if u 0 = 0 then c else 0 := by
    intro K _ c u
    have e : ∀ k, fs (![k] : Pairs.Mon 1) = fs u ↔ u 0 = k := by
      intro k
      constructor
      · intro h
        have := DFunLike.congr_fun h 0
        simpa [fs] using this.symm
      · rintro rfl
        congr 1
        funext i
        fin_cases i
        rfl
    rw [lin, coeff_add, coeff_monomial, coeff_monomial]
    simp only [e]
    by_cases h1 : u 0 = 1
    · simp [h1]
    · simp [h1]
  constructor
  · ext u
    obtain ⟨u, rfl⟩ := fs_surj u
    rw [coeff_reduceMod, hc, hc]
    split_ifs
    · simp
    · rw [show (-1 / 2 : ℚ).num = -1 by norm_num, show (-1 / 2 : ℚ).den = 2 by norm_num]
      simp
    · simp
  · intro u
    obtain ⟨u, rfl⟩ := fs_surj u
    rw [hc]
    split_ifs
    · simpa using hp.out.one_lt.ne'
    · rw [show (-1 / 2 : ℚ).den = 2 by norm_num]
      exact fun h => h2 ((Nat.prime_dvd_prime_iff_eq hp.out Nat.prime_two).mp h)
    · simpa using hp.out.one_lt.ne'

theorem l_good {p : ℕ} (hp : p.Prime) (h2 : p ≠ 2) : GoodPrime (n := 1) OKind.drl.mo lTerms p where
  lucky := by
    intro hF
    have hz : (2 : ZMod p) ≠ 0 := by
      intro h
      have : ((2 : ℕ) : ZMod p) = 0 := by exact_mod_cast h
      rw [ZMod.natCast_eq_zero_iff] at this
      exact h2 ((Nat.prime_dvd_prime_iff_eq hp Nat.prime_two).mp this)
    obtain ⟨u, hu⟩ := lTerms_poly ℚ two_ne_zero
    obtain ⟨v, hv⟩ := lTerms_poly (ZMod p) hz
    constructor
    · have : ∀ ts ∈ lTerms, ∀ t ∈ ts, (t.numer = 2 ∨ t.numer = -1) ∧ t.denom = 1 := by decide +kernel
      intro ts hts t ht
      obtain ⟨h1, h3⟩ := this ts hts t ht
      have hp1 : ¬ (p : ℤ) ∣ 1 := fun h => hp.one_lt.ne' (by exact_mod_cast Int.eq_one_of_dvd_one (Int.natCast_nonneg p) h)
      refine ⟨?_, by rwa [h3]⟩
      rcases h1 with h1 | h1 <;> rw [h1]
      · intro h
        have : p ∣ 2 := by exact_mod_cast h
        exact h2 ((Nat.prime_dvd_prime_iff_eq hp Nat.prime_two).mp this)
      · rwa [dvd_neg]
    · intro G hG
      have e1 : idealQ 1 lTerms = Ideal.span {lin (-1 / 2 : ℚ)} := by
        have : idealQ 1 lTerms = Ideal.span {u.1 * lin (-1 / 2 : ℚ)} := by rw [← hu]; rfl
        rw [this, Ideal.span_singleton_mul_left_unit u.isUnit]
      rw [e1] at hG
      obtain rfl := reduced_unique (lin_groebner (-1 / 2 : ℚ)) hG
      obtain ⟨r1, r2⟩ := l_reduce p h2
      refine ⟨by rintro g rfl; exact r2, ?_⟩
      have e2 : Ideal.span { q | ∃ ts ∈ lTerms, q = polyMod p 1 ts } = Ideal.span {lin (-1 / 2 : ZMod p)} := by
        have : Ideal.span { q | ∃ ts ∈ lTerms, q = polyMod p 1 ts } = Ideal.span {v.1 * lin (-1 / 2 : ZMod p)} := by rw [← hv]; rfl
        rw [this, Ideal.span_singleton_mul_left_unit v.isUnit]
      rw [e2, Set.image_singleton, r1]
      exact lin_groebner _
  degree := by
    intro last w c hw hne hd
    obtain ⟨u, hu⟩ := lTerms_poly ℚ two_ne_zero
    have e1 : idealQ 1 lTerms = Ideal.span {lin (-1 / 2 : ℚ)} := by
      have : idealQ 1 lTerms = Ideal.span {u.1 * lin (-1 / 2 : ℚ)} := by rw [← hu]; rfl
      rw [this, Ideal.span_singleton_mul_left_unit u.isUnit]
    have e2 : { g : MvPolynomial (_root_.Fin 1) ℚ | ∃ k : _root_.Fin 1, k ≠ last ∧ g = X k + Polynomial.aeval (X last) (c k) } = ∅ := by
      ext g
      simp only [Set.mem_ofPred_eq, Set.mem_empty_iff_false, iff_false]
      rintro ⟨k, hk, -⟩
      exact hk (Subsingleton.elim _ _)
    have h1 := hw.span
    rw [e1, e2, Set.union_empty] at h1
    obtain ⟨q, hq⟩ := Ideal.mem_span_singleton.mp (h1 ▸ Ideal.mem_span_singleton_self (lin (-1 / 2 : ℚ)))
    have h3 := congrArg (aeval fun _ => (Polynomial.X : Polynomial ℚ)) hq
    rw [map_mul, ← Polynomial.aeval_algHom_apply, aeval_X, Polynomial.aeval_X_left_apply] at h3
    have h4 : aeval (fun _ => (Polynomial.X : Polynomial ℚ)) (lin (-1 / 2 : ℚ)) = Polynomial.X + Polynomial.C (-1 / 2) := by
      simp [lin, aeval_monomial, fs, Finsupp.prod_fintype]
    rw [h4] at h3
    have h5 := Polynomial.natDegree_le_of_dvd ⟨_, h3⟩ (Polynomial.X_add_C_ne_zero _)
    rw [Polynomial.natDegree_X_add_C] at h5
    have h6 := Nat.le_of_dvd (by omega) hd
    have := hp.one_lt
    omega
  coord := fun last w c _ k hk => absurd (Subsingleton.elim k last) hk

/-- The hypotheses of `C80_solutions_partial` are met, by an execution that prints a parametrization: the polynomial is `2 x - 1`. -/
example : ∃ out, SolveQ.Run 2 3 1 128 2 lFile.text (lTerms.map (qqPoly 1)) [1073741827, 1073741831, 1073741833, 1073741839] out ∧
    InputOkQ lFile lNames lTerms ∧ ['A'] ∉ lNames ∧ (∀ nm ∈ lNames, '\'' ∉ nm) ∧ Variant lNames.length lTerms 1 id lTerms ∧
    (∀ p ∈ [1073741827, 1073741831, 1073741833, 1073741839], GoodPrime (n := 1) OKind.drl.mo lTerms p) ∧
    [1073741827, 1073741831, 1073741833, 1073741839].Nodup ∧
    ∃ form denom coords, Spec.Output.readOutput out = some (.list [.num 0, ratParam 1 1 lNames form [-1, 2] denom coords]) := by
  obtain ⟨out, h1, h2⟩ := l_run
  exact ⟨out, h1, lFile_ok, by decide, by decide, .same, fun p hp => l_good (l_primes p hp).1 (l_primes p hp).2.1, by decide, h2⟩

end SolveQ
end Verif.Props
