import Verif.SaturateTest
import Verif.Props.F4

/-! C69: F4 with saturation. -/

namespace Verif.Props

open Verif.F4 Verif.Pairs Verif.Spec Verif.RowReduce Verif.Normalize Verif.Echelon Verif.Orders
open Verif.SatKernel Verif.ProbLA MvPolynomial

variable {n : Nat}

/-- The ideal of the input. -/
noncomputable def inIdeal (p : Nat) (F : List (Poly n)) : Ideal (MvPolynomial (Fin n) (ZMod p)) :=
  Ideal.span { g | ∃ f ∈ F, g = toMv p f }

/-- Input of the computation: the degree reverse lexicographic order, a characteristic with more than 16 bits
(and at most 31), monic generators with sorted terms, an element with reduced coefficients. -/
structure SatPre (C : Cfg n) (F : List (Poly n)) (f : Poly n) : Prop where
  cfg : CfgOk C
  ord : C.ord = .drl
  big : 2 ^ 16 < C.p
  gens : ∀ g ∈ F, PolyOk C.ord C.p g
  elt : InPoly C.p f

theorem SatPre.big15 {C : Cfg n} {F : List (Poly n)} {f : Poly n} (h : SatPre C F f) : 2 ^ 15 ≤ C.p := by
  have := h.big
  omega

/-- C69, the full claim would be that the ideal `J` below is `I : f^∞`; this is false, see
`C69_not_saturated` and `C69_test_wrong`.  What holds for every run: the result is the reduced Gröbner basis
of an ideal between `I` and `I : f^∞`, sorted by leading monomials. -/
theorem C69_between_partial {C : Cfg n} [Fact C.p.Prime] {F : List (Poly n)} {f : Poly n} (h : SatPre C F f)
    {w : SEnd n} {G : List (Poly n)} (hG : SatResult C F f w G) :
    ∃ J, Between (inIdeal C.p F) (toMv C.p f) J ∧ IsReducedGroebner C.ord.mo J { g | ∃ q ∈ G, g = toMv C.p q } ∧
      (∀ q ∈ G, PolyOk C.ord C.p q) ∧ G.Pairwise fun a b => C.ord.lt (lead a) (lead b) := by
  obtain ⟨s, hr, hf⟩ := hG
  obtain ⟨J, _, h1, h2⟩ := srun_inv h.cfg h.big15 hr (sinv_start h.cfg h.gens h.elt)
  obtain ⟨r1, r2, r3⟩ := final_reduced h.cfg h1.inv h2 hf
  exact ⟨J, h1.btw, r1, r2, r3⟩

theorem mem_of_lead_zero {C : Cfg n} [Fact C.p.Prime] {J : Ideal (MvPolynomial (Fin n) (ZMod C.p))} {s : St n}
    (h : Inv C J s) (hc : s.const = true) : J = ⊤ := by
  obtain ⟨q, hq, h0⟩ := h.const hc
  rw [Ideal.eq_top_iff_one, ← toMv_one (h.ok q hq) h0, ← h.ideal]
  exact Ideal.subset_span ⟨q, hq, rfl⟩

/-- How a run ends. -/
theorem srun_last {C : Cfg n} {s s' : SSt n} {w : SEnd n} (h : SRun C s s' w) [Fact C.p.Prime]
    {I J : Ideal (MvPolynomial (Fin n) (ZMod C.p))} {f : MvPolynomial (Fin n) (ZMod C.p)} (hC : CfgOk C)
    (hp15 : 2 ^ 15 ≤ C.p) (hi : SInv C I f J s) : ∃ t J', SInv C I f J' t ∧ SLast C t s' w := by
  induction h generalizing J with
  | last s s' w hl => exact ⟨s, J, hi, hl⟩
  | turn s s' s'' w ht _ ih =>
    obtain ⟨J', _, h2⟩ := sturn_inv hC hp15 hi ht
    exact ih h2

/-- C69: if the run ends because a constant was found, the result is the reduced Gröbner basis of the
saturation, which is the whole ring. -/
theorem C69_constant {C : Cfg n} [Fact C.p.Prime] {F : List (Poly n)} {f : Poly n} (h : SatPre C F f)
    {G : List (Poly n)} (hG : SatResult C F f .const G) :
    IsReducedGroebner C.ord.mo ⊤ { g | ∃ q ∈ G, g = toMv C.p q } ∧ IsSaturation (inIdeal C.p F) (toMv C.p f) ⊤ := by
  obtain ⟨s, hr, hf⟩ := hG
  obtain ⟨t, J, h1, h2⟩ := srun_last hr h.cfg h.big15 (sinv_start h.cfg h.gens h.elt)
  obtain ⟨h3, h4⟩ := slast_inv h.cfg h1 h2
  have hc : s.st.const = true := by cases h2; assumption
  obtain rfl := mem_of_lead_zero h3.inv hc
  exact ⟨(final_reduced h.cfg h3.inv h4 hf).1, fun q => ⟨fun _ => h3.btw.2 q trivial, fun _ => trivial⟩⟩

/-- C69: if the run ends because the test with a monic stored element says yes, the result is the reduced
Gröbner basis of the saturation.  Missing: elements that are not monic, for them it is false
(`C69_test_wrong`). -/
theorem C69_test_partial {C : Cfg n} [Fact C.p.Prime] {F : List (Poly n)} {f : Poly n} (h : SatPre C F f)
    {g : Poly n} (hg : PolyOk C.ord C.p g) {G : List (Poly n)} (hG : SatResult C F f (.test g) G) :
    ∃ J, IsSaturation (inIdeal C.p F) (toMv C.p f) J ∧
      IsReducedGroebner C.ord.mo J { g | ∃ q ∈ G, g = toMv C.p q } := by
  obtain ⟨s, hr, hf⟩ := hG
  obtain ⟨t, J, h1, h2⟩ := srun_last hr h.cfg h.big15 (sinv_start h.cfg h.gens h.elt)
  obtain ⟨h3, h4⟩ := slast_inv h.cfg h1 h2
  refine ⟨J, ?_, (final_reduced h.cfg h3.inv h4 hf).1⟩
  rcases h2 with _ | _ | ⟨t', m, g, e, _, hst, hc, hh, _, _, ht, he⟩
  obtain ⟨h5, _⟩ := fstep_inv h.cfg h1 hst
  exact saturated_of_one h5.btw (h5.sat m g (List.mem_of_mem_head? hh)).2 (test_one h.cfg h.big15 h5.inv hc hg ht he)

/-- States in which a saturation step may start. -/
inductive SReach (C : Cfg n) (F : List (Poly n)) (f : Poly n) : SSt n → Prop
  | start : SReach C F f (satStart C F f)
  | step {s s' : SSt n} : SReach C F f s → FStep C s s' → SReach C F f s'
  | test {s : SSt n} (e : St n) : SReach C F f s → SReach C F f (afterTest s e)
  | deg {s : SSt n} (d : Nat) : SReach C F f s → SReach C F f { s with nextDeg := d }
  | stage {s s' : SSt n} {ii : Nat} {k : Option (List (Mon n) × List Row)} : SReach C F f s → Stage C ii s k s' →
      SReach C F f s'

theorem sreach_inv {C : Cfg n} [Fact C.p.Prime] {F : List (Poly n)} {f : Poly n} (h : SatPre C F f) {s : SSt n}
    (hs : SReach C F f s) : ∃ J, SInv C (inIdeal C.p F) (toMv C.p f) J s := by
  induction hs with
  | start => exact ⟨_, sinv_start h.cfg h.gens h.elt⟩
  | step _ hf ih => obtain ⟨J, hJ⟩ := ih; exact ⟨J, (fstep_inv h.cfg hJ hf).1⟩
  | test e _ ih => obtain ⟨J, hJ⟩ := ih; exact ⟨J, afterTest_inv hJ e⟩
  | deg d _ ih => obtain ⟨J, hJ⟩ := ih; exact ⟨J, hJ.inv, hJ.btw, hJ.sat⟩
  | stage _ hst ih =>
    obtain ⟨J, hJ⟩ := ih
    obtain ⟨J', _, h'⟩ := stage_inv h.cfg h.big15 hJ hst
    exact ⟨J', h'⟩

theorem sreach_stages {C : Cfg n} {F : List (Poly n)} {f : Poly n} {sd ii : Nat} {s s' : SSt n}
    (h : Stages C sd ii s s') : SReach C F f s → SReach C F f s' := by
  induction h with
  | done ii s _ => exact fun h => h.deg _
  | grow ii s s' k _ hst _ => exact fun h => (h.stage hst).deg _
  | next ii s s' s'' k _ hst _ _ ih => exact fun h => ih (h.stage hst)

/-- `SReach` contains the states of the runs. -/
theorem sreach_turn {C : Cfg n} {F : List (Poly n)} {f : Poly n} {s s' : SSt n} (h : SReach C F f s)
    (hs : STurn C s s') : SReach C F f s' := by
  rcases hs with ⟨_, m, g, _, hf, _⟩ | ⟨t, _, m, g, e, _, hf, _, _, _, _, _, _, hst⟩ | ⟨t, _, m, g, _, hf, _, _, _, _, hst⟩
  · exact h.step hf
  · exact sreach_stages hst ((h.step hf).test e)
  · exact sreach_stages hst (h.step hf)

/-- The polynomial of a row of the kernel. -/
noncomputable def rowMv (p : Nat) (hcmm : List (Mon n)) (r : Row) : MvPolynomial (Fin n) (ZMod p) := toMv p (backRow hcmm r)

/-- C69: a saturation step that reaches the computation of the kernel, on a state without pairs.  The
multipliers are exactly the standard monomials up to the degree, and the kernel spans exactly the combinations
of them which multiply `f` into the ideal of the basis. -/
theorem C69_kernel {C : Cfg n} [Fact C.p.Prime] {F : List (Poly n)} {f : Poly n} (h : SatPre C F f) {s s' : SSt n}
    (hs : SReach C F f s) (hps : s.st.pst.ps = []) {ii : Nat} {hcmm : List (Mon n)} {K : List Row}
    (hst : Stage C ii s (some (hcmm, K)) s') :
    (∀ u, u ∈ hcmm ↔ (∀ g ∈ s.st.els, ¬ lead g ≤ u) ∧ tdeg u ≤ ii) ∧
    ∀ q : MvPolynomial (Fin n) (ZMod C.p), (∀ u ∈ q.support, ∃ m ∈ hcmm, u = fs m) →
      (q * toMv C.p f ∈ inIdeal C.p s.st.els ↔
        q ∈ Submodule.span (ZMod C.p) { g | ∃ r ∈ K, g = rowMv C.p hcmm r }) := by
  obtain ⟨J, hJ⟩ := sreach_inv h hs
  obtain ⟨h1, h2, h3, h4⟩ := stage_kernel h.cfg hJ (Or.inl hps) hst
  have hJe : inIdeal C.p s.st.els = J := hJ.inv.ideal
  refine ⟨?_, ?_⟩
  · intro u
    rw [h2]
    refine and_congr_left fun _ => ?_
    unfold stdMon
    rw [List.all_eq_true]
    simp only [Bool.not_eq_true', decide_eq_false_iff_not]
    constructor
    · intro h5 g hg hle
      obtain ⟨i, hi, rfl⟩ := List.mem_iff_getElem.mp hg
      obtain ⟨k, hk, hk'⟩ := hJ.inv.reducers hi
      rw [List.getD_eq_getElem s.st.els _ hi] at hk'
      exact h5 k hk (hk'.trans hle)
    · intro h5 k hk hle
      exact h5 _ (getD_mem (hJ.inv.lmps_lt k hk)) hle
  · intro q hq
    rw [hJe, h4 q hq]
    unfold kerSpan
    rw [Submodule.map_span]
    have : (phi C.p hcmm '' { v | ∃ r ∈ K, v = rvec C.p r }) = { g | ∃ r ∈ K, g = rowMv C.p hcmm r } := by
      ext g
      constructor
      · rintro ⟨v, ⟨r, hr, rfl⟩, rfl⟩
        exact ⟨r, hr, phi_rvec _ _ _ fun t ht => ((h3 r hr).2.bound t ht).1⟩
      · rintro ⟨r, hr, rfl⟩
        exact ⟨_, ⟨r, hr, rfl⟩, phi_rvec _ _ _ fun t ht => ((h3 r hr).2.bound t ht).1⟩
    rw [this]

/-- C69: if on a state without pairs the kernel for all standard monomials is empty, the reduced basis of this
state is the reduced Gröbner basis of the saturation.  Missing: the runs stop without this condition, see
`C69_not_saturated`. -/
theorem C69_empty_kernel_partial {C : Cfg n} [Fact C.p.Prime] {F : List (Poly n)} {f : Poly n} (h : SatPre C F f)
    {s s' : SSt n} (hs : SReach C F f s) (hps : s.st.pst.ps = []) {ii : Nat} {hcmm : List (Mon n)}
    (hst : Stage C ii s (some (hcmm, [])) s') (hall : ∀ u : Mon n, (∀ g ∈ s.st.els, ¬ lead g ≤ u) → tdeg u ≤ ii)
    {G : List (Poly n)} (hG : Final C s'.st G) :
    ∃ J, IsSaturation (inIdeal C.p F) (toMv C.p f) J ∧
      IsReducedGroebner C.ord.mo J { g | ∃ q ∈ G, g = toMv C.p q } := by
  obtain ⟨J, hJ⟩ := sreach_inv h hs
  have hall' : ∀ u, stdMon s.st.els s.st.pst.lmps u = true → tdeg u ≤ ii := by
    intro u hu
    apply hall
    intro g hg hle
    obtain ⟨i, hi, rfl⟩ := List.mem_iff_getElem.mp hg
    obtain ⟨k, hk, hk'⟩ := hJ.inv.reducers hi
    rw [List.getD_eq_getElem s.st.els _ hi] at hk'
    unfold stdMon at hu
    rw [List.all_eq_true] at hu
    have := hu k hk
    simp only [Bool.not_eq_true', decide_eq_false_iff_not] at this
    exact this (hk'.trans hle)
  refine ⟨J, saturated_of_empty h.cfg hJ (Or.inl hps) hst hall', ?_⟩
  have e : s'.st = s.st := by
    rcases hst with _ | _ | ⟨_, _, _, _, _, _, _, _, _, hne, _⟩
    · rfl
    · exact absurd rfl hne
  rw [e] at hG
  exact (final_reduced h.cfg hJ.inv (Or.inl hps) hG).1

/-- C69: the main loop makes finitely many turns, and so does the loop of the test with a monic element. -/
theorem C69_terminates {C : Cfg n} [Fact C.p.Prime] {F : List (Poly n)} {f : Poly n} (h : SatPre C F f) :
    (∀ σ : Nat → SSt n, σ 0 = satStart C F f → ¬ ∀ i, STurn C (σ i) (σ (i + 1))) ∧
    ∀ s, SReach C F f s → s.st.const = false → ∀ g, PolyOk C.ord C.p g → ∀ σ : Nat → St n,
      σ 0 = St.mk (s.st.els ++ [g])
        (updateBasis C.ord.nev C.ord.mo0 C.srtUpd (elsOf C.ord.nev (s.st.els ++ [g])) 1 s.st.pst) s.st.const →
      ¬ ∀ i, PRound C (σ i) (σ (i + 1)) := by
  refine ⟨fun σ h0 => sturn_finite h.cfg h.big15 σ (h0 ▸ sinv_start h.cfg h.gens h.elt), ?_⟩
  intro s hs hc g hg σ h0
  obtain ⟨J, hJ⟩ := sreach_inv h hs
  refine pround_finite (I := ⊤) h.cfg h.big15 σ ?_
  rw [h0]
  exact winv_add h.cfg (winv_of_inv hJ.inv le_top) (ps := s.st.pst.ps) (fun _ h => h) (N := [g]) (b := s.st.const) (by
    intro q hq
    rw [List.mem_singleton] at hq
    subst hq
    exact ⟨hg, trivial⟩) (by rw [hc]; simp)

/-! ### No saturation without pairs -/

/-- `x y`. -/
def npF : List (Poly 2) := [[(![1, 1], 1)]]
/-- `y`. -/
def npf : Poly 2 := [(![0, 1], 1)]

theorem prime65537 : Nat.Prime 65537 := by norm_num

instance fact65537 : Fact (Nat.Prime 65537) := ⟨prime65537⟩

theorem npPre (mnsel : Nat) (hm : 0 < mnsel) : SatPre (stdCfg (n := 2) .drl 65537 mnsel) npF npf := by
  refine ⟨stdCfg_ok _ prime65537 (by norm_num) hm, rfl, by simp [stdCfg], ?_, ?_⟩
  · intro g hg
    rw [npF, List.mem_singleton] at hg
    subst hg
    exact ⟨⟨[], rfl⟩, by simp, by simp [stdCfg]⟩
  · exact ⟨by simp [npf], by simp [npf, stdCfg]⟩

theorem np_ps (mnsel : Nat) : (satStart (stdCfg (n := 2) .drl 65537 mnsel) npF npf).st.pst.ps = [] := by
  simp only [satStart, start, stdCfg]
  rfl

/-- The generators have no pairs: the saturation step is never entered. -/
theorem C69_not_saturated {mnsel : Nat} (hm : 0 < mnsel) :
    (∃ G, SatResult (stdCfg (n := 2) .drl 65537 mnsel) npF npf .pairs G) ∧
    ∀ w G, SatResult (stdCfg (n := 2) .drl 65537 mnsel) npF npf w G →
      ∀ J, IsReducedGroebner OKind.drl.mo J { g | ∃ q ∈ G, g = toMv 65537 q } →
        ¬ IsSaturation (inIdeal 65537 npF) (toMv 65537 npf) J := by
  have hpr : Fact (Nat.Prime (stdCfg (n := 2) .drl 65537 mnsel).p) := fact65537
  have hpre := npPre mnsel hm
  have hinv := inv_start hpre.cfg hpre.gens
  have hd : done (start (stdCfg (n := 2) .drl 65537 mnsel) npF) := Or.inl (np_ps mnsel)
  refine ⟨?_, ?_⟩
  · obtain ⟨G, hG⟩ := final_exists hpre.cfg hinv (by simp [start, npF])
    exact ⟨G, _, .last _ _ _ (.stop (np_ps mnsel)), hG⟩
  · rintro w G ⟨s, hr, hf⟩ J hJ hsat
    have hs : s = satStart (stdCfg (n := 2) .drl 65537 mnsel) npF npf := by
      rcases hr with ⟨_, _, _, hl⟩ | ⟨_, _, _, _, ht, _⟩
      · rcases hl with _ | ⟨_, h, _⟩ | ⟨_, _, _, _, h, _⟩
        · rfl
        · exact absurd (np_ps mnsel) h
        · exact absurd (np_ps mnsel) h
      · rcases ht with ⟨_, _, _, h, _⟩ | ⟨_, _, _, _, _, h, _⟩ | ⟨_, _, _, _, h, _⟩ <;> exact absurd (np_ps mnsel) h
    subst hs
    obtain ⟨hG, _⟩ := final_reduced hpre.cfg hinv hd hf
    have hx : PolyOk (n := 2) .drl 65537 [(![1, 0], 1)] := ⟨⟨[], rfl⟩, by simp, by simp⟩
    have hxJ : toMv 65537 [((![1, 0] : Mon 2), 1)] ∈ J := by
      rw [hsat]
      refine ⟨1, ?_⟩
      have : toMv 65537 npf ^ 1 * toMv 65537 [((![1, 0] : Mon 2), 1)] = toMv 65537 [((![1, 1] : Mon 2), 1)] := by
        rw [pow_one, npf]
        simp only [toMv_cons, toMv_nil, add_zero, monomial_mul, ← fs_add]
        rw [show (![0, 1] + ![1, 0] : Mon 2) = ![1, 1] by decide]
        simp
      rw [this]
      exact Ideal.subset_span ⟨_, List.mem_singleton.mpr rfl, rfl⟩
    obtain ⟨g, hg, hg0, hle⟩ := hJ.1.2 _ hxJ (Groebner.ne_zero_of_monic (m := OKind.drl.mo) hx.monic)
    obtain ⟨e, ⟨q, hq, rfl⟩, _, hle2⟩ := (inv_groebner hinv hd).2 g (hG.1.1 g hg) hg0
    have hq : q = [(![1, 1], 1)] := List.mem_singleton.mp hq
    subst hq
    have hd1 : PolyOk (n := 2) .drl 65537 [(![1, 1], 1)] := ⟨⟨[], rfl⟩, by simp, by simp⟩
    have h1 := le_trans hle2 hle
    rw [show (stdCfg (n := 2) .drl 65537 mnsel).ord = .drl from rfl] at h1
    have h2 : OKind.drl.mo.degree (toMv 65537 [((![1, 1] : Mon 2), 1)]) ≤ OKind.drl.mo.degree (toMv 65537 [((![1, 0] : Mon 2), 1)]) := h1
    rw [hd1.degree, hx.degree] at h2
    have := fs_le.mp h2 1
    simp [lead] at this

end Verif.Props
