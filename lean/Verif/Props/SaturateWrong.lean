import Verif.Props.Saturate

/-! C69: a run in which the test for saturation is wrong. -/

namespace Verif.Props

open Verif.F4 Verif.Pairs Verif.Spec Verif.RowReduce Verif.Normalize Verif.Echelon Verif.Orders Verif.Groebner
open Verif.SatKernel Verif.ProbLA MvPolynomial

namespace SatWrong

/-- The configuration. -/
noncomputable def cfg : Cfg 1 := stdCfg .drl 65537 1

theorem cfgOk : CfgOk cfg := stdCfg_ok _ prime65537 (by norm_num) (by norm_num)

noncomputable instance : Fact (Nat.Prime cfg.p) := fact65537

/-- `(x - 1)^2 (x + 1)`. -/
def a : Poly 1 := [(![3], 1), (![2], 65536), (![1], 65536), (![0], 1)]
/-- `x (x - 1)^2 (x + 1)`. -/
def b : Poly 1 := [(![4], 1), (![3], 65536), (![2], 65536), (![1], 1)]
/-- `2 x - 2`. -/
def f : Poly 1 := [(![1], 2), (![0], 65535)]
/-- `x^2 - 1`. -/
def c : Poly 1 := [(![2], 1), (![0], 65536)]

/-- `select` on one pair. -/
theorem select_one (stale : Mon 1) (q : Pair 1) : (select cfg.mnsel stale (cfg.srtSel [q])).1 = [q] ∧
    (select cfg.mnsel stale (cfg.srtSel [q])).2 = [] := by
  have h := select_pos cfgOk stale (l := [q]) (by simp)
  have h2 : (select cfg.mnsel stale (cfg.srtSel [q])).2 = [] := by
    rw [← List.length_eq_zero_iff]
    simp only [List.length_singleton] at h
    omega
  refine ⟨?_, h2⟩
  have := select_append cfg.mnsel stale (cfg.srtSel [q])
  rw [h2, List.append_nil] at this
  rw [this]
  exact List.perm_singleton.mp (cfgOk.sel [q])

/-- A round on a Gröbner basis with one pair. -/
theorem fstep_nil {s : SSt 1} {J : Ideal (MvPolynomial (Fin 1) (ZMod cfg.p))} (h : Inv cfg J s.st) {q : Pair 1}
    (hq : s.st.pst.ps = [q]) (hc : s.st.const = false)
    (hJ : ∀ h ∈ J, h ≠ 0 → ∃ g ∈ s.st.els, fs (lead g) ≤ cfg.ord.mo.degree h) :
    FStep cfg s { s with st := ⟨s.st.els, updateBasis cfg.ord.nev cfg.ord.mo0 cfg.srtUpd (elsOf cfg.ord.nev s.st.els) 0
      { s.st.pst with ps := [] }, false⟩ } := by
  have h0 : Inv cfg J { s.st with const := false } := inv_const h false (by simp)
  obtain ⟨s', hr⟩ := round_exists cfgOk h0 (by simp [done, hq])
  have hr' := hr
  obtain ⟨_, stale, sy, N, h1, rfl⟩ := round_inv cfgOk h0 hr
  have hN : N = [] := by
    by_contra hne
    obtain ⟨g, hg⟩ := List.exists_mem_of_ne_nil _ hne
    have hok := h1.new.ok g hg
    have hgJ : toMv cfg.p g ∈ J := by
      rw [← h1.ideal h0]
      exact Ideal.subset_span ⟨g, List.mem_append_right _ hg, rfl⟩
    obtain ⟨e, he, hle⟩ := hJ _ hgJ (ne_zero_of_monic (m := cfg.ord.mo) hok.monic)
    rw [hok.degree] at hle
    exact h1.newLead h0 hg he (fs_le.mp hle)
  subst hN
  have e : next cfg stale { s.st with const := false } [] = ⟨s.st.els, updateBasis cfg.ord.nev cfg.ord.mo0 cfg.srtUpd
      (elsOf cfg.ord.nev s.st.els) 0 { s.st.pst with ps := [] }, false⟩ := by
    unfold next
    simp only [List.append_nil, hq, (select_one stale q).2, List.length_nil, List.any_nil, Bool.or_false]
  rw [e] at hr'
  have := FStep.mk (s := s) _ hr'
  simp only [hc, Bool.or_false, lt_self_iff_false, if_false] at this
  exact this

/-! ### The states -/

/-- Before the first round. -/
noncomputable def t0 : SSt 1 := satStart cfg [a, b] f
/-- Pairs and indices after the first round. -/
def p1 : PSt 1 := updateBasis 0 true id (elsOf 0 [a, b]) 0
  { updateBasis 0 true id (elsOf 0 [a, b]) 2 init0 with ps := [] }
/-- After the first round. -/
def t1 : SSt 1 := ⟨⟨[a, b], p1, false⟩, [(0, some f)], 0, 0, 0⟩
/-- After degree 0. -/
def t2 : SSt 1 := { t1 with sat := [(![0], some f)] }
/-- After degree 1. -/
def t3 : SSt 1 := { t1 with sat := [(![0], some f), (![1], some [(![2], 2), (![1], 65535)])] }
/-- After degree 2: the kernel is `x^2 - 1`. -/
def t4 : SSt 1 := ⟨⟨[a, b, c], updateBasis 0 true id (elsOf 0 [a, b, c]) 1 p1, false⟩,
  [(![0], some f), (![1], some [(![2], 2), (![1], 65535)]), (![2], some f)], 0, 2, 1⟩
/-- After the second round. -/
def p5 : PSt 1 := updateBasis 0 true id (elsOf 0 [a, b, c]) 0 { t4.st.pst with ps := [] }
/-- After the second round. -/
def t5 : SSt 1 := { t4 with st := ⟨[a, b, c], p5, false⟩ }
/-- The test: `2 x - 2` is added. -/
def p6 : PSt 1 := updateBasis 0 true id (elsOf 0 [a, b, c, f]) 1 p5
/-- The test: `2 x - 2` is added. -/
def u0 : St 1 := ⟨[a, b, c, f], p6, false⟩

instance : DecidableEq (MRow 1) := fun x y =>
  decidable_of_iff (x.mul = y.mul ∧ x.gen = y.gen) ⟨fun h => by cases x; cases y; simp_all, fun h => by rw [h]; simp⟩

instance : DecidableEq (Verif.F4.Sym 1) := fun x y =>
  decidable_of_iff (x.ms = y.ms ∧ x.mark = y.mark ∧ x.rr = y.rr ∧ x.tr = y.tr)
    ⟨fun h => by cases x; cases y; simp_all, fun h => by rw [h]; simp⟩

theorem skip0 : Stage cfg 0 t1 none t2 :=
  .skip [![0]] [(![0], f)] 5 ⟨[![1], ![0]], [], [], []⟩ (by decide +kernel) (by decide +kernel) (by decide +kernel) rfl

theorem skip1 : Stage cfg 1 t2 none t3 :=
  .skip [![0], ![1]] [(![0], f), (![1], [(![2], 2), (![1], 65535)])] 5 ⟨[![1], ![0], ![2]], [], [], []⟩
    (by decide +kernel) (by decide +kernel) (by decide +kernel) rfl

theorem drl1 {i j : Nat} (h : i < j) : OKind.drl.lt (![i] : Mon 1) ![j] := by
  left
  simpa [tdeg] using h

/-! ### Executions with one block -/

/-- The steps of one block which draws the same multipliers always. -/
def exec1 (P : Echelon.Par) (blk : List Row) (mull : Nat → Nat) : Nat → BTh → (Nat → Option Row) →
    Option (BTh × (Nat → Option Row))
  | 0, x, pv => some (x, pv)
  | k + 1, x, pv => if x.finished then some (x, pv) else
      (blkStep P blk mull pv x).bind fun q => exec1 P blk mull k q.1 q.2

theorem exec1_pexec {P : Echelon.Par} {nb : Nat} {blks : Fin nb → List Row} {t : Fin nb} {mull : Nat → Nat} {N : Nat}
    (hm : ∀ k, mull k < N) {c0 : PConf nb} : ∀ (k m : Nat) (c : PConf nb), PExec P N blks m c0 c →
    ∀ {x pv}, exec1 P (blks t) mull k (c.th t) c.pivs = some (x, pv) →
    ∃ m' c', PExec P N blks m' c0 c' ∧ c'.th t = x ∧ c'.pivs = pv
  | 0, m, c, he, x, pv, h => by
    obtain ⟨rfl, rfl⟩ := Prod.mk.inj (Option.some.inj h)
    exact ⟨m, c, he, rfl, rfl⟩
  | k + 1, m, c, he, x, pv, h => by
    rw [exec1] at h
    split_ifs at h with hf
    · obtain ⟨rfl, rfl⟩ := Prod.mk.inj (Option.some.inj h)
      exact ⟨m, c, he, rfl, rfl⟩
    · rw [Option.bind_eq_some_iff] at h
      obtain ⟨⟨y, pw⟩, h1, h2⟩ := h
      have he' := PExec.step he (.mk c t mull y pw (by simpa using hf) hm h1)
      refine exec1_pexec hm k _ _ he' ?_
      simp only [Function.update_self]
      exact h2

/-- The linear algebra with one block. -/
def laOne (p ncl ncols : Nat) (pivs : Nat → Option Row) (rows : List Row) (k : Nat) : Option (Nat → Option Row) :=
  (exec1 (par31 p ncl ncols) rows (fun _ => 1) k ((probInit pivs 1).th 0) pivs).bind fun q =>
    if q.1.finished then interreduce (par31 p ncl ncols) q.2 else none

theorem laOne_ok {p ncl ncols : Nat} {pivs : Nat → Option Row} {rows : List Row} {k : Nat} {R : Nat → Option Row}
    (hn : nBlocks rows.length = 1) (hb : blockRows rows 0 = rows) (h : laOne p ncl ncols pivs rows k = some R) :
    PLaResult p ncl ncols pivs rows R := by
  unfold laOne at h
  rw [Option.bind_eq_some_iff] at h
  obtain ⟨⟨x, pv⟩, h1, h2⟩ := h
  split_ifs at h2 with hf
  have h0 : 0 < nBlocks rows.length := by omega
  have hblk : blocksOf rows ⟨0, h0⟩ = rows := hb
  obtain ⟨m, c, e1, e2, e3⟩ := exec1_pexec (P := par31 p ncl ncols) (blks := blocksOf rows) (t := ⟨0, h0⟩) (N := 2 ^ 15)
    (mull := fun _ => 1) (c0 := probInit pivs _) (fun _ => by norm_num) k 0 _ (.refl _) (x := x) (pv := pv) (by
      rw [hblk]; exact h1)
  refine ⟨_, Or.inl rfl, m, c, e1, ?_, ?_⟩
  · intro i
    have : i = ⟨0, h0⟩ := by apply Fin.ext; have := i.2; simp only; omega
    rw [this, e2]
    exact hf
  · rw [e3]; exact h2

theorem laOne_exists {α : Type*} {p ncl ncols : Nat} {pivs : Nat → Option Row} {rows : List Row} {k : Nat}
    {obs : (Nat → Option Row) → α} {v : α} (hn : nBlocks rows.length = 1) (hb : blockRows rows 0 = rows)
    (h : (laOne p ncl ncols pivs rows k).map obs = some v) : ∃ R, PLaResult p ncl ncols pivs rows R ∧ obs R = v := by
  rw [Option.map_eq_some_iff] at h
  obtain ⟨R, h1, h2⟩ := h
  exact ⟨R, laOne_ok hn hb h1, h2⟩

/-- The linear algebra for the kernel. -/
theorem kernelLa : ∃ R, PLaResult 65537 0 3 (fun _ => none) [[(0, 1), (2, 65536)]] R ∧
    newPolys [![2], ![1], ![0]] R = [c] :=
  laOne_exists (k := 10) (by decide) (by decide) (by decide +kernel)

/-- Rows of the matrix of the kernel. -/
def kl : List (Nat × Nat × Row) := [(2, 0, [(2, 2), (3, 65535)]), (1, 1, [(1, 2), (2, 65535)]), (0, 2, [(2, 2), (3, 65535)])]

theorem kernel2 : Kernel cfg [a, b] p1.lmps [(![0], f), (![1], [(![2], 2), (![1], 65535)]), (![2], [(![3], 2), (![2], 65535)])]
    [some f, some [(![2], 2), (![1], 65535)], some f] [![2], ![1], ![0]] [[(0, 1), (2, 65536)]] := by
  refine .mk 10 ⟨[![1], ![0], ![2], ![3]], [![3]], [⟨![0], 0⟩], []⟩ [![3], ![2], ![1], ![0]] [⟨![0], 0⟩] _ _ kl
    [[(0, 1), (2, 65536)]] _ (by decide +kernel) (by simp) ⟨by decide +kernel, ?_⟩ (by decide +kernel) (by simp)
    (by show _ = _; simp only [cfg, stdCfg]; decide +kernel) (by decide +kernel) ?_ (by decide +kernel) (by simp [kl]) (by
      show _ = _; simp only [cfg, stdCfg]; decide +kernel) (by decide +kernel)
  · have hd : ∀ {i j : Nat}, i < j → cfg.ord.lt (![i] : Mon 1) ![j] := fun h => drl1 h
    simp [colLt, hd]
  · have hd : ∀ {i j : Nat}, i < j → cfg.ord.lt (![i] : Mon 1) ![j] := fun h => drl1 h
    simp [hd]

theorem stage2 : ∃ s', Stage cfg 2 t3 (some ([![2], ![1], ![0]], [[(0, 1), (2, 65536)]])) s' ∧
    { s' with nextDeg := 2 } = t4 := by
  obtain ⟨R, hR, hN⟩ := kernelLa
  refine ⟨_, .kernel [![0], ![1], ![2]] _ _ _ _ R (by decide +kernel) (by decide +kernel) kernel2 (by simp) hR, ?_⟩
  rw [hN]
  rfl

instance : DecidableEq (Pairs.Pair 1) := fun a b =>
  decidable_of_iff (a.lcm = b.lcm ∧ a.gen1 = b.gen1 ∧ a.gen2 = b.gen2 ∧ a.deg = b.deg)
    ⟨fun h => by cases a; cases b; simpa using h, fun h => by subst h; simp⟩

/-! ### Polynomials -/

/-- The variable. -/
noncomputable abbrev x : MvPolynomial (Fin 1) (ZMod 65537) := X 0

theorem mono_eq (k e : Nat) : (monomial (fs (![k] : Mon 1)) ((e : Nat) : ZMod 65537)) = C ((e : Nat) : ZMod 65537) * x ^ k := by
  have : fs (![k] : Mon 1) = Finsupp.single 0 k := by
    refine Finsupp.ext fun i => ?_
    have : i = 0 := Subsingleton.elim _ _
    subst this
    simp [fs]
  rw [X_pow_eq_monomial, C_mul_monomial, mul_one, this]

theorem neg1 : (C ((65536 : Nat) : ZMod 65537) : MvPolynomial (Fin 1) (ZMod 65537)) = -1 := by
  rw [show ((65536 : Nat) : ZMod 65537) = -1 by decide, map_neg, map_one]

theorem neg2 : (C ((65535 : Nat) : ZMod 65537) : MvPolynomial (Fin 1) (ZMod 65537)) = -2 := by
  rw [show ((65535 : Nat) : ZMod 65537) = -2 by decide, map_neg, show (2 : ZMod 65537) = ((2 : Nat) : ZMod 65537) by rfl, C_eq_coe_nat]
  rfl

theorem one1 : (C ((1 : Nat) : ZMod 65537) : MvPolynomial (Fin 1) (ZMod 65537)) = 1 := by simp

theorem two2 : (C ((2 : Nat) : ZMod 65537) : MvPolynomial (Fin 1) (ZMod 65537)) = 2 := by
  rw [C_eq_coe_nat]
  rfl

theorem mv_a : toMv 65537 a = (x - 1) ^ 2 * (x + 1) := by
  simp only [a, toMv_cons, toMv_nil, mono_eq, neg1, one1]
  ring

theorem mv_b : toMv 65537 b = x * (x - 1) ^ 2 * (x + 1) := by
  simp only [b, toMv_cons, toMv_nil, mono_eq, neg1, one1]
  ring

theorem mv_c : toMv 65537 c = (x - 1) * (x + 1) := by
  simp only [c, toMv_cons, toMv_nil, mono_eq, neg1, one1]
  ring

theorem mv_f : toMv 65537 f = 2 * (x - 1) := by
  simp only [f, toMv_cons, toMv_nil, mono_eq, neg2, two2]
  ring

theorem ok_sorted {l : List Nat} (h : l.Pairwise (· > ·)) : (l.map fun i => (![i] : Mon 1)).Pairwise fun u v => OKind.drl.lt v u := by
  rw [List.pairwise_map]
  exact h.imp fun h => drl1 h

theorem ok_a : PolyOk .drl 65537 a := ⟨⟨_, rfl⟩, ok_sorted (l := [3, 2, 1, 0]) (by decide), by decide +kernel⟩
theorem ok_b : PolyOk .drl 65537 b := ⟨⟨_, rfl⟩, ok_sorted (l := [4, 3, 2, 1]) (by decide), by decide +kernel⟩
theorem ok_c : PolyOk .drl 65537 c := ⟨⟨_, rfl⟩, ok_sorted (l := [2, 0]) (by decide), by decide +kernel⟩

/-- Multiples of a monic polynomial. -/
theorem deg_mult {g : Poly 1} (hg : PolyOk .drl 65537 g) {h : MvPolynomial (Fin 1) (ZMod 65537)}
    (hh : h ∈ Ideal.span {toMv 65537 g}) (h0 : h ≠ 0) : fs (lead g) ≤ OKind.drl.mo.degree h := by
  obtain ⟨q, rfl⟩ := Ideal.mem_span_singleton'.mp hh
  have hq : q ≠ 0 := fun h => h0 (by rw [h, zero_mul])
  have hg0 : toMv 65537 g ≠ 0 := ne_zero_of_monic (m := OKind.drl.mo) hg.monic
  rw [MonomialOrder.degree_mul hq hg0, hg.degree]
  exact le_add_self

/-! ### The run -/

theorem pre : SatPre cfg [a, b] f := by
  refine ⟨cfgOk, rfl, by simp [cfg, stdCfg], ?_, by decide, by simp only [cfg, stdCfg]; decide +kernel⟩
  intro g hg
  rcases List.mem_cons.mp hg with rfl | hg
  · exact ok_a
  · rw [List.mem_singleton.mp hg]; exact ok_b

theorem inv0 : SInv cfg (inIdeal 65537 [a, b]) (toMv 65537 f) (inIdeal 65537 [a, b]) t0 :=
  sinv_start cfgOk pre.gens pre.elt

theorem step1 : FStep cfg t0 t1 := by
  have := fstep_nil (q := ⟨![4], 0, 1, 4⟩) inv0.inv (by decide +kernel) rfl (by
    intro h hh h0
    refine ⟨a, List.mem_cons_self, deg_mult ok_a ?_ h0⟩
    refine (Ideal.span_le.mpr ?_ : inIdeal 65537 [a, b] ≤ _) hh
    rintro g ⟨q, hq, rfl⟩
    rcases List.mem_cons.mp hq with rfl | hq
    · exact Ideal.subset_span rfl
    · rw [List.mem_singleton.mp hq]
      refine Ideal.mem_span_singleton'.mpr ⟨x, ?_⟩
      rw [mv_a, mv_b]
      ring)
  exact this

theorem turn : STurn cfg t0 t4 := by
  obtain ⟨s', h1, h2⟩ := stage2
  refine .sat t1 t4 0 f (by decide +kernel) step1 rfl rfl (Or.inr (by decide +kernel)) (fun h => absurd h.1 (by decide)) ?_
  have e : satDeg t1 = 4 := by decide +kernel
  rw [e]
  refine .next 0 t1 t2 t4 none (by norm_num) skip0 rfl (.next 1 t2 t3 t4 none (by norm_num) skip1 rfl ?_)
  have h3 := Stages.grow (C := cfg) (satDeg := 4) 2 t3 s' _ (by norm_num) h1 (by
    have : s'.st = t4.st := by rw [← h2]
    rw [this]
    decide)
  rw [h2] at h3
  exact h3

/-- The elements of the last basis are multiples of `x^2 - 1`. -/
theorem ideal4 : Ideal.span { g | ∃ q ∈ [a, b, c], g = toMv 65537 q } ≤ Ideal.span {toMv 65537 c} := by
  rw [Ideal.span_le]
  rintro g ⟨q, hq, rfl⟩
  rcases List.mem_cons.mp hq with rfl | hq
  · exact Ideal.mem_span_singleton'.mpr ⟨x - 1, by rw [mv_a, mv_c]; ring⟩
  · rcases List.mem_cons.mp hq with rfl | hq
    · exact Ideal.mem_span_singleton'.mpr ⟨x * (x - 1), by rw [mv_b, mv_c]; ring⟩
    · rw [List.mem_singleton.mp hq]
      exact Ideal.subset_span rfl

theorem step2 {J : Ideal (MvPolynomial (Fin 1) (ZMod cfg.p))} (h : Inv cfg J t4.st) : FStep cfg t4 t5 := by
  have := fstep_nil (q := ⟨![3], 0, 2, 3⟩) h (by decide +kernel) rfl (by
    intro g hg h0
    refine ⟨c, by decide, deg_mult ok_c (ideal4 ?_) h0⟩
    have := h.ideal
    rw [← this] at hg
    exact hg)
  exact this

/-- The wrong round of the test. -/
theorem round : ∃ e, PRound cfg u0 e ∧ e.const = true := by
  obtain ⟨R, hR, hN⟩ := laOne_exists (p := 65537) (ncl := 2) (ncols := 3)
    (pivs := pivs0 [a, b, c, f] [![2], ![1], ![0]] [⟨![0], 2⟩, ⟨![0], 3⟩])
    (rows := [⟨![1], 3⟩].map fun r => convRow [![2], ![1], ![0]] (rowPoly [a, b, c, f] r)) (k := 20)
    (obs := newPolys ([![2], ![1], ![0]] : List (Mon 1))) (v := [[(![0], 1)]]) (by decide) (by decide +kernel) (by decide +kernel)
  have hps : u0.pst.ps = [⟨![2], 2, 3, 2⟩] := by decide +kernel
  have hsel : selSym cfg 0 u0 = addPairs [a, b, c, f] [⟨![2], 2, 3, 2⟩] ⟨[], [], [], []⟩ := by
    unfold selSym
    rw [hps, (select_one 0 _).1]
    rfl
  refine ⟨_, .mk u0 0 10 ⟨[![2], ![0], ![1]], [![1], ![2], ![2]], [⟨![0], 2⟩, ⟨![0], 3⟩], [⟨![1], 3⟩]⟩ [![2], ![1], ![0]]
    [⟨![0], 2⟩, ⟨![0], 3⟩] [⟨![1], 3⟩] R (by rw [hps]; simp) (by rw [hsel]; decide +kernel) ⟨by decide +kernel, ?_⟩
    (by decide +kernel) (by decide +kernel) (by decide +kernel) hR, ?_⟩
  · have hd : ∀ {i j : Nat}, i < j → cfg.ord.lt (![i] : Mon 1) ![j] := fun h => drl1 h
    simp [colLt, hd]
  · simp only [next]
    rw [hN]
    decide

end SatWrong

open SatWrong in
/-- A run in which the test says yes although the ideal is not saturated: the stored element `2 x - 2` is
used as if it were monic.  The ideal of the input is generated by `(x - 1)^2 (x + 1)`, the saturation by `x - 1`
contains `x + 1`, the result is the reduced basis of an ideal without it. -/
theorem C69_test_wrong : SatPre SatWrong.cfg [a, b] f ∧ ∃ G, SatResult SatWrong.cfg [a, b] f (.test f) G ∧
    ∀ J, IsReducedGroebner OKind.drl.mo J { g | ∃ q ∈ G, g = toMv 65537 q } →
      ¬ IsSaturation (inIdeal 65537 [a, b]) (toMv 65537 f) J := by
  refine ⟨pre, ?_⟩
  obtain ⟨J4, _, h4⟩ := sturn_inv cfgOk pre.big15 inv0 turn
  have hst := step2 h4.inv
  obtain ⟨h5, _⟩ := fstep_inv cfgOk h4 hst
  obtain ⟨e, hr, he⟩ := SatWrong.round
  have htest : TestRun SatWrong.cfg t5.st f e := .const _ _ hr he
  have hlast : SLast SatWrong.cfg t4 (afterTest t5 e) (.test f) :=
    .yes t5 ![0] f e (by decide +kernel) hst rfl rfl (Or.inr (by decide +kernel))
      ⟨by decide, by decide +kernel, by decide +kernel⟩ htest he
  obtain ⟨h6, h7⟩ := slast_inv cfgOk h4 hlast
  obtain ⟨G, hG⟩ := final_exists cfgOk h6.inv (by simp [afterTest, t5])
  refine ⟨G, ⟨_, .turn _ _ _ _ turn (.last _ _ _ hlast), hG⟩, ?_⟩
  intro J hJ hsat
  obtain ⟨hred, _⟩ := final_reduced cfgOk h6.inv h7 hG
  have hmem : x + 1 ∈ J := by
    rw [hsat]
    refine ⟨2, ?_⟩
    have : toMv 65537 f ^ 2 * (x + 1) = 4 * toMv 65537 a := by rw [mv_f, mv_a]; ring
    rw [this]
    exact Ideal.mul_mem_left _ _ (Ideal.subset_span ⟨a, List.mem_cons_self, rfl⟩)
  have ok1 : PolyOk (n := 1) .drl 65537 [(![1], 1), (![0], 1)] :=
    ⟨⟨_, rfl⟩, ok_sorted (l := [1, 0]) (by decide), by decide +kernel⟩
  have hx : toMv 65537 [((![1] : Mon 1), 1), (![0], 1)] = x + 1 := by
    simp only [toMv_cons, toMv_nil, mono_eq, one1]
    ring
  rw [← hx] at hmem
  obtain ⟨g, hg, hg0, hle⟩ := hJ.1.2 _ hmem (ne_zero_of_monic (m := OKind.drl.mo) ok1.monic)
  have hgJ := hred.1.1 g hg
  have hid := h6.inv.ideal
  rw [← hid] at hgJ
  have h2 := le_trans (deg_mult ok_c (ideal4 hgJ) hg0) hle
  rw [ok1.degree] at h2
  have := fs_le.mp h2 0
  simp [lead, c] at this

end Verif.Props
