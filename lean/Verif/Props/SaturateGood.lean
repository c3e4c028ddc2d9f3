import Verif.Props.SaturateWrong

/-! C69: a run in which the test for saturation is right, as an example for the hypotheses. -/

namespace Verif.Props

open Verif.F4 Verif.Pairs Verif.Spec Verif.RowReduce Verif.Normalize Verif.Echelon Verif.Orders Verif.Groebner
open Verif.SatKernel Verif.ProbLA MvPolynomial

namespace SatGood

open SatWrong (cfg cfgOk fstep_nil select_one laOne_exists drl1 x mono_eq neg1 one1 ok_sorted deg_mult)

/-- `x^2 - 1`. -/
def a : Poly 1 := [(![2], 1), (![0], 65536)]
/-- `x^3 - x`. -/
def b : Poly 1 := [(![3], 1), (![1], 65536)]
/-- `x - 1`. -/
def f : Poly 1 := [(![1], 1), (![0], 65536)]
/-- `x + 1`. -/
def c : Poly 1 := [(![1], 1), (![0], 1)]

/-- Before the first round. -/
noncomputable def t0 : SSt 1 := satStart cfg [a, b] f
/-- Pairs and indices after the first round. -/
def p1 : PSt 1 := updateBasis 0 true id (elsOf 0 [a, b]) 0
  { updateBasis 0 true id (elsOf 0 [a, b]) 2 init0 with ps := [] }
/-- After the first round. -/
def t1 : SSt 1 := ⟨⟨[a, b], p1, false⟩, [(0, some f)], 0, 0, 0⟩
/-- After degree 0. -/
def t2 : SSt 1 := { t1 with sat := [(![0], some f)] }
/-- After degree 1: the kernel is `x + 1`. -/
def t4 : SSt 1 := ⟨⟨[a, b, c], updateBasis 0 true id (elsOf 0 [a, b, c]) 1 p1, false⟩,
  [(![0], some f), (![1], some [(![1], 65536), (![0], 1)])], 0, 1, 1⟩
/-- After the second round. -/
def p5 : PSt 1 := updateBasis 0 true id (elsOf 0 [a, b, c]) 0 { t4.st.pst with ps := [] }
/-- After the second round. -/
def t5 : SSt 1 := { t4 with st := ⟨[a, b, c], p5, false⟩ }
/-- The test: `x - 1` is added. -/
def p6 : PSt 1 := updateBasis 0 true id (elsOf 0 [a, b, c, f]) 1 p5
/-- The test: `x - 1` is added. -/
def u0 : St 1 := ⟨[a, b, c, f], p6, false⟩

/-- Rows of the matrix of the kernel. -/
def kl : List (Nat × Nat × Row) := [(1, 0, [(1, 65536), (2, 1)]), (0, 1, [(1, 1), (2, 65536)])]

theorem skip0 : Stage cfg 0 t1 none t2 :=
  .skip [![0]] [(![0], f)] 5 ⟨[![1], ![0]], [], [], []⟩ (by decide +kernel) (by decide +kernel) (by decide +kernel) rfl

theorem kernelLa : ∃ R, PLaResult 65537 0 2 (fun _ => none) [[(0, 1), (1, 1)]] R ∧
    newPolys [![1], ![0]] R = [c] :=
  laOne_exists (k := 10) (by decide) (by decide) (by decide +kernel)

theorem kernel1 : Kernel cfg [a, b] p1.lmps [(![0], f), (![1], [(![2], 1), (![1], 65536)])]
    [some f, some [(![1], 65536), (![0], 1)]] [![1], ![0]] [[(0, 1), (1, 1)]] := by
  refine .mk 10 ⟨[![1], ![0], ![2]], [![2]], [⟨![0], 0⟩], []⟩ [![2], ![1], ![0]] [⟨![0], 0⟩] _ _ kl
    [[(0, 1), (1, 1)]] _ (by decide +kernel) (by simp) ⟨by decide +kernel, ?_⟩ (by decide +kernel) (by simp)
    (by show _ = _; simp only [cfg, stdCfg]; decide +kernel) (by decide +kernel) ?_ (by decide +kernel) (by simp [kl]) (by
      show _ = _; simp only [cfg, stdCfg]; decide +kernel) (by decide +kernel)
  · have hd : ∀ {i j : Nat}, i < j → cfg.ord.lt (![i] : Mon 1) ![j] := fun h => drl1 h
    simp [colLt, hd]
  · have hd : ∀ {i j : Nat}, i < j → cfg.ord.lt (![i] : Mon 1) ![j] := fun h => drl1 h
    simp [hd]

theorem stage1 : ∃ s', Stage cfg 1 t2 (some ([![1], ![0]], [[(0, 1), (1, 1)]])) s' ∧
    { s' with nextDeg := 1 } = t4 := by
  obtain ⟨R, hR, hN⟩ := kernelLa
  refine ⟨_, .kernel [![0], ![1]] _ _ _ _ R (by decide +kernel) (by decide +kernel) kernel1 (by simp) hR, ?_⟩
  rw [hN]
  rfl

theorem mv_a : toMv 65537 a = (x - 1) * (x + 1) := by
  simp only [a, toMv_cons, toMv_nil, mono_eq, neg1, one1]
  ring

theorem mv_b : toMv 65537 b = x * (x - 1) * (x + 1) := by
  simp only [b, toMv_cons, toMv_nil, mono_eq, neg1, one1]
  ring

theorem mv_c : toMv 65537 c = x + 1 := by
  simp only [c, toMv_cons, toMv_nil, mono_eq, one1]
  ring

theorem ok_a : PolyOk .drl 65537 a := ⟨⟨_, rfl⟩, ok_sorted (l := [2, 0]) (by decide), by decide +kernel⟩
theorem ok_b : PolyOk .drl 65537 b := ⟨⟨_, rfl⟩, ok_sorted (l := [3, 1]) (by decide), by decide +kernel⟩
theorem ok_c : PolyOk .drl 65537 c := ⟨⟨_, rfl⟩, ok_sorted (l := [1, 0]) (by decide), by decide +kernel⟩
theorem ok_f : PolyOk .drl 65537 f := ⟨⟨_, rfl⟩, ok_sorted (l := [1, 0]) (by decide), by decide +kernel⟩

theorem pre : SatPre cfg [a, b] f := by
  refine ⟨cfgOk, rfl, by simp [cfg, stdCfg], ?_, by decide, by simp only [cfg, stdCfg]; decide +kernel⟩
  intro g hg
  rcases List.mem_cons.mp hg with rfl | hg
  · exact ok_a
  · rw [List.mem_singleton.mp hg]; exact ok_b

theorem inv0 : SInv cfg (inIdeal 65537 [a, b]) (toMv 65537 f) (inIdeal 65537 [a, b]) t0 :=
  sinv_start cfgOk pre.gens pre.elt

theorem step1 : FStep cfg t0 t1 := by
  have := fstep_nil (q := ⟨![3], 0, 1, 3⟩) inv0.inv (by decide +kernel) rfl (by
    intro h hh h0
    refine ⟨a, List.mem_cons_self, deg_mult ok_a ?_ h0⟩
    refine (Ideal.span_le.mpr ?_ : inIdeal 65537 [a, b] ≤ _) hh
    rintro g ⟨q, hq, rfl⟩
    rcases List.mem_cons.mp hq with rfl | hq
    · exact Ideal.subset_span rfl
    · rw [List.mem_singleton.mp hq]
      refine Ideal.mem_span_singleton'.mpr ⟨x, ?_⟩
      rw [mv_a, mv_b]
      ring)
  exact this

theorem turn : STurn cfg t0 t4 := by
  obtain ⟨s', h1, h2⟩ := stage1
  refine .sat t1 t4 0 f (by decide +kernel) step1 rfl rfl (Or.inr (by decide +kernel)) (fun h => absurd h.1 (by decide)) ?_
  have e : satDeg t1 = 3 := by decide +kernel
  rw [e]
  refine .next 0 t1 t2 t4 none (by norm_num) skip0 rfl ?_
  have h3 := Stages.grow (C := cfg) (satDeg := 3) 1 t2 s' _ (by norm_num) h1 (by
    have : s'.st = t4.st := by rw [← h2]
    rw [this]
    decide)
  rw [h2] at h3
  exact h3

theorem step2 {J : Ideal (MvPolynomial (Fin 1) (ZMod cfg.p))} (h : Inv cfg J t4.st) : FStep cfg t4 t5 := by
  have := fstep_nil (q := ⟨![2], 0, 2, 2⟩) h (by decide +kernel) rfl (by
    intro g hg h0
    refine ⟨c, by decide, deg_mult ok_c ?_ h0⟩
    have := h.ideal
    rw [← this] at hg
    refine (Ideal.span_le.mpr ?_ : Ideal.span { g | ∃ q ∈ [a, b, c], g = toMv 65537 q } ≤ _) hg
    rintro g ⟨q, hq, rfl⟩
    rcases List.mem_cons.mp hq with rfl | hq
    · exact Ideal.mem_span_singleton'.mpr ⟨x - 1, by rw [mv_a, mv_c]⟩
    · rcases List.mem_cons.mp hq with rfl | hq
      · exact Ideal.mem_span_singleton'.mpr ⟨x * (x - 1), by rw [mv_b, mv_c]⟩
      · rw [List.mem_singleton.mp hq]
        exact Ideal.subset_span rfl)
  exact this

theorem round : ∃ e, PRound cfg u0 e ∧ e.const = true := by
  obtain ⟨R, hR, hN⟩ := laOne_exists (p := 65537) (ncl := 1) (ncols := 2)
    (pivs := pivs0 [a, b, c, f] [![1], ![0]] [⟨![0], 2⟩])
    (rows := [⟨![0], 3⟩].map fun r => convRow [![1], ![0]] (rowPoly [a, b, c, f] r)) (k := 20)
    (obs := newPolys ([![1], ![0]] : List (Mon 1))) (v := [[(![0], 1)]]) (by decide) (by decide +kernel) (by decide +kernel)
  have hps : u0.pst.ps = [⟨![1], 2, 3, 1⟩] := by decide +kernel
  have hsel : selSym cfg 0 u0 = addPairs [a, b, c, f] [⟨![1], 2, 3, 1⟩] ⟨[], [], [], []⟩ := by
    unfold selSym
    rw [hps, (select_one 0 _).1]
    rfl
  refine ⟨_, .mk u0 0 10 ⟨[![1], ![0]], [![1], ![1]], [⟨![0], 2⟩], [⟨![0], 3⟩]⟩ [![1], ![0]]
    [⟨![0], 2⟩] [⟨![0], 3⟩] R (by rw [hps]; simp) (by rw [hsel]; decide +kernel) ⟨by decide +kernel, ?_⟩
    (by decide +kernel) (by decide +kernel) (by decide +kernel) hR, ?_⟩
  · have hd : ∀ {i j : Nat}, i < j → cfg.ord.lt (![i] : Mon 1) ![j] := fun h => drl1 h
    simp [colLt, hd]
  · simp only [next]
    rw [hN]
    decide

/-- The hypotheses of `C69_test_partial` hold for this run. -/
theorem good : SatPre cfg [a, b] f ∧ PolyOk cfg.ord cfg.p f ∧ ∃ G, SatResult cfg [a, b] f (.test f) G := by
  refine ⟨pre, ok_f, ?_⟩
  obtain ⟨J4, _, h4⟩ := sturn_inv cfgOk pre.big15 inv0 turn
  have hst := step2 h4.inv
  obtain ⟨e, hr, he⟩ := SatGood.round
  have htest : TestRun cfg t5.st f e := .const _ _ hr he
  have hlast : SLast cfg t4 (afterTest t5 e) (.test f) :=
    .yes t5 ![0] f e (by decide +kernel) hst rfl rfl (Or.inr (by decide +kernel))
      ⟨by decide, by decide +kernel, by decide +kernel⟩ htest he
  obtain ⟨h6, _⟩ := slast_inv cfgOk h4 hlast
  obtain ⟨G, hG⟩ := final_exists cfgOk h6.inv (by simp [afterTest, t5])
  exact ⟨G, _, .turn _ _ _ _ turn (.last _ _ _ hlast), hG⟩

example : SatPre cfg [a, b] f ∧ PolyOk cfg.ord cfg.p f ∧ ∃ G, SatResult cfg [a, b] f (.test f) G := good

/-- The hypotheses of `C69_kernel` hold for the second degree of the first turn. -/
example : SReach cfg [a, b] f t2 ∧ t2.st.pst.ps = [] ∧
    ∃ s', Stage cfg 1 t2 (some ([![1], ![0]], [[(0, 1), (1, 1)]])) s' := by
  obtain ⟨s', h, _⟩ := stage1
  exact ⟨(SReach.start.step step1).stage skip0, by decide +kernel, s', h⟩

end SatGood

namespace SatEmpty

open SatWrong (cfg cfgOk fstep_nil select_one drl1 x mono_eq one1 ok_sorted deg_mult)

/-- `x^2`. -/
def a : Poly 1 := [(![2], 1)]
/-- `x^3`. -/
def b : Poly 1 := [(![3], 1)]
/-- `x + 1`. -/
def f : Poly 1 := [(![1], 1), (![0], 1)]

/-- Pairs and indices after the first round. -/
def p1 : PSt 1 := updateBasis 0 true id (elsOf 0 [a, b]) 0
  { updateBasis 0 true id (elsOf 0 [a, b]) 2 init0 with ps := [] }
/-- After the first round. -/
def t1 : SSt 1 := ⟨⟨[a, b], p1, false⟩, [(0, some f)], 0, 0, 0⟩

theorem ok_a : PolyOk .drl 65537 a := ⟨⟨_, rfl⟩, ok_sorted (l := [2]) (by decide), by decide +kernel⟩
theorem ok_b : PolyOk .drl 65537 b := ⟨⟨_, rfl⟩, ok_sorted (l := [3]) (by decide), by decide +kernel⟩

theorem pre : SatPre cfg [a, b] f := by
  refine ⟨cfgOk, rfl, by simp [cfg, stdCfg], ?_, by decide, by simp only [cfg, stdCfg]; decide +kernel⟩
  intro g hg
  rcases List.mem_cons.mp hg with rfl | hg
  · exact ok_a
  · rw [List.mem_singleton.mp hg]; exact ok_b

theorem step1 : FStep cfg (satStart cfg [a, b] f) t1 := by
  have := fstep_nil (q := ⟨![3], 0, 1, 3⟩) (sinv_start cfgOk pre.gens pre.elt).inv (by decide +kernel) rfl (by
    intro h hh h0
    refine ⟨a, List.mem_cons_self, deg_mult ok_a ?_ h0⟩
    refine (Ideal.span_le.mpr ?_ : inIdeal 65537 [a, b] ≤ _) hh
    rintro g ⟨q, hq, rfl⟩
    rcases List.mem_cons.mp hq with rfl | hq
    · exact Ideal.subset_span rfl
    · rw [List.mem_singleton.mp hq]
      refine Ideal.mem_span_singleton'.mpr ⟨x, ?_⟩
      simp only [a, b, toMv_cons, toMv_nil, mono_eq, one1]
      ring)
  exact this

theorem kernel1 : Kernel cfg [a, b] p1.lmps [(![0], f), (![1], [(![2], 1), (![1], 1)])]
    [some f, some [(![1], 1)]] [![1], ![0]] [] := by
  refine .mk 10 ⟨[![1], ![0], ![2]], [![2]], [⟨![0], 0⟩], []⟩ [![2], ![1], ![0]] [⟨![0], 0⟩] _ _
    [(1, 0, [(1, 1)]), (0, 1, [(1, 1), (2, 1)])]
    [] _ (by decide +kernel) (by simp) ⟨by decide +kernel, ?_⟩ (by decide +kernel) (by simp)
    (by show _ = _; simp only [cfg, stdCfg]; decide +kernel) (by decide +kernel) ?_ (by decide +kernel) (by simp) (by
      show _ = _; simp only [cfg, stdCfg]; decide +kernel) (by decide +kernel)
  · have hd : ∀ {i j : Nat}, i < j → cfg.ord.lt (![i] : Mon 1) ![j] := fun h => drl1 h
    simp [colLt, hd]
  · have hd : ∀ {i j : Nat}, i < j → cfg.ord.lt (![i] : Mon 1) ![j] := fun h => drl1 h
    simp [hd]

/-- The hypotheses of `C69_empty_kernel_partial` hold: `I = (x^2)` is saturated with respect to `x + 1`. -/
example : SReach cfg [a, b] f t1 ∧ t1.st.pst.ps = [] ∧ (∃ s' G, Stage cfg 1 t1 (some ([![1], ![0]], [])) s' ∧ Final cfg s'.st G) ∧
    ∀ u : Mon 1, (∀ g ∈ t1.st.els, ¬ lead g ≤ u) → tdeg u ≤ 1 := by
  have hr : SReach cfg [a, b] f t1 := SReach.start.step step1
  obtain ⟨J, hJ⟩ := sreach_inv pre hr
  obtain ⟨G, hG⟩ := final_exists cfgOk hJ.inv (by simp [t1])
  refine ⟨hr, by decide +kernel, ⟨_, G, .empty [![0], ![1]] _ _ _ (by decide +kernel) (by decide +kernel) kernel1, hG⟩, ?_⟩
  intro u hu
  have := hu a (by simp [t1])
  by_contra h
  apply this
  intro i
  have h0 : i = 0 := Subsingleton.elim _ _
  subst h0
  simp [tdeg] at h
  show 2 ≤ u 0
  omega

/-- `x`. -/
def g1 : Poly 1 := [(![1], 1)]

theorem ok_g1 : PolyOk .drl 65537 g1 := ⟨⟨_, rfl⟩, ok_sorted (l := [1]) (by decide), by decide +kernel⟩
theorem ok_f : PolyOk .drl 65537 f := ⟨⟨_, rfl⟩, ok_sorted (l := [1, 0]) (by decide), by decide +kernel⟩

theorem preC : SatPre cfg [g1, f] g1 := by
  refine ⟨cfgOk, rfl, by simp [cfg, stdCfg], ?_, by decide, by simp only [cfg, stdCfg]; decide +kernel⟩
  intro g hg
  rcases List.mem_cons.mp hg with rfl | hg
  · exact ok_g1
  · rw [List.mem_singleton.mp hg]; exact ok_f

/-- The hypotheses of `C69_constant` hold. -/
example : SatPre cfg [g1, f] g1 ∧ ∃ G, SatResult cfg [g1, f] g1 .const G := by
  refine ⟨preC, ?_⟩
  have h0 := (sinv_start cfgOk preC.gens preC.elt).inv
  have hps : (satStart cfg [g1, f] g1).st.pst.ps = [⟨![1], 0, 1, 1⟩] := by decide +kernel
  have htop : inIdeal cfg.p [g1, f] = ⊤ := by
    rw [Ideal.eq_top_iff_one]
    have h1 : toMv 65537 f - toMv 65537 g1 = 1 := by
      simp only [f, g1, toMv_cons, toMv_nil, mono_eq, one1]
      ring
    have h2 : toMv 65537 f - toMv 65537 g1 ∈ inIdeal 65537 [g1, f] :=
      Ideal.sub_mem _ (Ideal.subset_span ⟨f, by simp, rfl⟩) (Ideal.subset_span ⟨g1, by simp, rfl⟩)
    rw [h1] at h2
    exact h2
  obtain ⟨s', hr⟩ := round_exists cfgOk h0 (by
    intro hd
    rcases hd with hd | hd
    · have := hps
      rw [show (satStart cfg [g1, f] g1).st.pst.ps = [] from hd] at this
      simp at this
    · simp [satStart, start] at hd)
  obtain ⟨hd, stale, sy, N, h1, rfl⟩ := round_inv cfgOk h0 hr
  have hst : FStep cfg (satStart cfg [g1, f] g1) _ := .mk _ hr
  obtain ⟨h2, h3⟩ := fstep_inv cfgOk (sinv_start cfgOk preC.gens preC.elt) hst
  have hc : (next cfg stale (satStart cfg [g1, f] g1).st N).const = true := by
    have key : ∀ g : Poly 1, PolyOk .drl 65537 g → ¬ lead g1 ≤ lead g → lead g = 0 := by
      intro g _ hg
      funext i
      have h0 : i = 0 := Subsingleton.elim _ _
      subst h0
      by_contra hne
      apply hg
      intro i
      have h0 : i = 0 := Subsingleton.elim _ _
      subst h0
      show 1 ≤ lead g 0
      have : lead g 0 ≠ 0 := hne
      omega
    by_cases hN : N = []
    · exfalso
      subst hN
      have h4 := inv_groebner h2.inv (Or.inl (by
        simp only [next, (select_one stale _).2, hps, List.append_nil]
        decide +kernel))
      have h5 : (1 : MvPolynomial (Fin 1) (ZMod cfg.p)) ∈ inIdeal cfg.p [g1, f] := by rw [htop]; trivial
      obtain ⟨g, ⟨q, hq, rfl⟩, hg0, hle⟩ := h4.2 _ h5 one_ne_zero
      have hq' : q ∈ [g1, f] := by simpa [next, satStart, start] using hq
      have hok := preC.gens q hq'
      rw [hok.degree, MonomialOrder.degree_one] at hle
      have hl : lead q = ![1] := by
        rcases List.mem_cons.mp hq' with rfl | h
        · rfl
        · rw [List.mem_singleton.mp h]; rfl
      have := hle 0
      rw [hl] at this
      simp [fs] at this
    · obtain ⟨g, hg⟩ := List.exists_mem_of_ne_nil _ hN
      have hz := key g (h1.new.ok g hg) (h1.newLead h0 hg (by simp [satStart, start]))
      simp only [next, Bool.or_eq_true, List.any_eq_true, decide_eq_true_eq]
      refine Or.inr ⟨g, hg, ?_⟩
      have hn : cfg.ord.nev = 0 := rfl
      simp [polyDeg, hz, tdeg, hn]
  obtain ⟨G, hG⟩ := final_exists cfgOk h2.inv (by simp [next, satStart, start])
  exact ⟨G, _, .last _ _ _ (.const _ (by rw [hps]; simp) hst (by simp [hc])), hG⟩

end SatEmpty

end Verif.Props
