import Verif.RealRoot

/-!
All real roots: every root of the eliminating polynomial gets the box of its point.
-/
namespace Verif.RealPoints
open Verif.UPoly Verif.UEval Verif.USign Verif.UIsolate Verif.Isolate Verif.URefine Verif.Spec
open Polynomial

/-- What is known about a parametrization: the eliminating polynomial has simple roots, the denominator is its
derivative (msolve.c 2469-2475), the coordinates have a smaller degree and positive integers in the denominators
(1376-1378). -/
structure Good (p : Param) : Prop where
  ns : 1 ≤ p.nsols
  lead : p.elim p.nsols ≠ 0
  simple : Simple (rp p.elim p.nsols)
  dlen : p.dlen = p.nsols
  den : ∀ i < p.nsols, p.denom i = denomOf p.elim i
  len : ∀ q ∈ p.coords, q.len ≤ p.nsols
  cf : ∀ q ∈ p.coords, 0 < q.cf

theorem lval_denom {p : Param} (hp : Good p) (x : ℝ) : lval p.denom p.dlen x = (rp p.elim p.nsols).derivative.eval x := by
  unfold lval rp toPoly
  rw [hp.dlen, Polynomial.map_sum, derivative_sum, eval_finsetSum, Finset.sum_range_succ']
  simp only [Polynomial.map_mul, Polynomial.map_pow, map_C, map_X]
  simp only [derivative_C_mul_X_pow, eval_mul, eval_pow, eval_C, eval_X]
  simp only [Nat.cast_zero, mul_zero, zero_mul, add_zero, Nat.add_sub_cancel]
  refine Finset.sum_congr rfl fun i hi => ?_
  rw [hp.den i (Finset.mem_range.mp hi), denomOf]
  push_cast
  simp

theorem lval_denom_ne {p : Param} (hp : Good p) {x : ℝ} (hx : (rp p.elim p.nsols).eval x = 0) : lval p.denom p.dlen x ≠ 0 := by
  rw [lval_denom hp]; exact hp.simple x hx

/-- The record holds the root `x` in its interior and no other root, and the polynomial changes its sign. -/
structure At (P : ℝ[X]) (x : ℝ) (rt : Ival) : Prop where
  ex : rt.exact = false
  k : 0 < rt.k
  lo : (icell rt).lo < x
  hi : x < (icell rt).hi
  uniq : ∀ y, (icell rt).lo < y → y < (icell rt).hi → P.eval y = 0 → y = x
  sgn : P.eval (icell rt).lo * P.eval (icell rt).hi < 0

/-- The condition under which the interval evaluation of the denominator encloses its value at `x`. -/
def Safe (p : Param) (x : ℝ) (r : ℤ) (k : ℕ) : Prop :=
  ∀ j < p.dlen - 1, ¬ Straddles (iv p.denom (p.dlen - 1) k r (r + 1) j) ∨ hv p.denom (p.dlen - 1) x j = 0

/-- The record at the end of the loop. -/
def Final (p : Param) (x : ℝ) (rt : Ival) (res : Ival × ℕ × ℤ × ℤ) : Prop :=
  res.1.exact = true ∧ (icell res.1).lo = x ∧ 0 ≤ res.1.k ∨
    res.1.exact = false ∧ rt.k ≤ res.1.k ∧ (icell rt).lo ≤ (icell res.1).lo ∧ (icell res.1).hi ≤ (icell rt).hi ∧
      (icell res.1).lo < x ∧ x < (icell res.1).hi ∧
      newvalueDenom p.denom p.dlen res.1.numer res.1.k.toNat res.2.1 = some (false, res.2.2.1, res.2.2.2)

theorem newvalue_some {p : Param} (hp : Good p) (r : ℤ) (k corr : ℕ) : ∃ b lo hi, newvalueDenom p.denom p.dlen r k corr = some (b, lo, hi) := by
  obtain ⟨d, hd⟩ : ∃ d, p.dlen = d + 1 := ⟨p.nsols - 1, by have := hp.ns; rw [hp.dlen]; omega⟩
  rw [hd, newvalue_eq]
  exact ⟨_, _, _, rfl⟩

theorem denLoop_spec (shl : ℕ → ℤ) {p : Param} (hp : Good p) {x : ℝ} (hx : (rp p.elim p.nsols).eval x = 0) {P : ℕ}
    (hP : ∀ k ≥ P, ∀ corr ≥ P, ∀ r : ℤ, (r : ℝ) ≤ 2 ^ k * x → 2 ^ k * x ≤ r + 1 →
      ∃ lo hi, newvalueDenom p.denom p.dlen r k corr = some (false, lo, hi)) (m : ℕ) :
    ∀ (rt : Ival) (corr : ℕ), At (rp p.elim p.nsols) x rt → 1 ≤ corr → P ≤ m + rt.k.toNat → P ≤ m + corr →
      ∃ K res, (∀ fuel ≥ K, ∀ n ≥ K, denLoop shl fuel p n rt corr = .done res) ∧ Final p x rt res := by
  induction m with
  | zero =>
    intro rt corr h hc h1 h2
    obtain ⟨c1, c2⟩ := cell_scaled h.k.le h.lo h.hi
    obtain ⟨lo, hi, hnv⟩ := hP rt.k.toNat (by omega) corr (by omega) rt.numer c1 c2
    refine ⟨1, (rt, corr, lo, hi), fun fuel _ n hn => ?_, Or.inr ⟨h.ex, le_rfl, le_rfl, le_rfl, h.lo, h.hi, hnv⟩⟩
    obtain ⟨n, rfl⟩ : ∃ n', n = n' + 1 := ⟨n - 1, by omega⟩
    rw [denLoop, if_neg (by simp [h.ex]), if_neg (by have := h.k; omega), hnv]
  | succ m ih =>
    intro rt corr h hc h1 h2
    obtain ⟨b, lo, hi, hnv⟩ := newvalue_some hp rt.numer rt.k.toNat corr
    cases b with
    | false =>
      refine ⟨1, (rt, corr, lo, hi), fun fuel _ n hn => ?_, Or.inr ⟨h.ex, le_rfl, le_rfl, le_rfl, h.lo, h.hi, hnv⟩⟩
      obtain ⟨n, rfl⟩ : ∃ n', n = n' + 1 := ⟨n - 1, by omega⟩
      rw [denLoop, if_neg (by simp [h.ex]), if_neg (by have := h.k; omega), hnv]
    | true =>
      obtain ⟨K1, rt', hrun, href, hk2, hkk⟩ := refineRt_spec shl hp.lead h.ex h.k h.sgn
      have hk0 := h.k
      have hstep : ∀ fuel ≥ K1, ∀ n, denLoop shl fuel p (n + 1) rt corr = denLoop shl fuel p n rt' (2 * corr) := by
        intro fuel hf n
        rw [denLoop, if_neg (by simp [h.ex]), if_neg (by omega), hnv]
        simp only [hrun fuel hf]
      cases href with
      | exact hex e1 e2 e0 =>
        have hxe : (icell rt').lo = x := h.uniq _ e1 e2 e0
        refine ⟨max K1 2, (rt', 0, 0, 0), fun fuel hf n hn => ?_, Or.inl ⟨hex, hxe, by simp only; omega⟩⟩
        obtain ⟨n, rfl⟩ : ∃ n', n = n' + 2 := ⟨n - 2, by omega⟩
        rw [hstep fuel (by omega), denLoop, if_pos (by exact hex)]
      | smaller hex e1 e2 hs =>
        have hex' : rt'.exact = false := hex
        have hk2' : 2 * rt.k ≤ rt'.k := hk2.resolve_left (by simp [hex'])
        obtain ⟨y, y1, y2, y0⟩ := exists_root_between _ (icell_lt rt') hs
        have hyx : y = x := h.uniq y (by linarith) (by linarith) y0
        subst hyx
        obtain ⟨K2, res, hres, hfin⟩ := ih rt' (2 * corr)
          ⟨hex', by omega, y1, y2, fun z z1 z2 z0 => h.uniq z (by linarith) (by linarith) z0, hs⟩ (by omega) (by omega) (by omega)
        refine ⟨max K1 (K2 + 1), res, fun fuel hf n hn => ?_, ?_⟩
        · obtain ⟨n, rfl⟩ : ∃ n', n = n' + 1 := ⟨n - 1, by omega⟩
          rw [hstep fuel (by omega)]
          exact hres fuel (by omega) n (by omega)
        · rcases hfin with hfin | ⟨g1, g2, g3, g4, g5⟩
          · exact Or.inl hfin
          · exact Or.inr ⟨g1, by omega, e1.trans g3, g4.trans e2, g5⟩

/-! ### Coordinates -/

theorem eval2exp_lval (c : ℕ → ℤ) (len : ℕ) (a : ℤ) (k : ℕ) :
    ((eval2exp c len a k : ℤ) : ℝ) = 2 ^ (k * (len - 1)) * lval c len ((a : ℝ) / 2 ^ k) := by
  obtain _ | deg := len
  · simp [eval2exp, lval]
  · rw [eval2exp_real, lval_succ, Nat.add_sub_cancel]

theorem has_round {y : ℝ} {k : ℕ} {e : Bool} : Box.has ⟨⌊2 ^ k * y⌋, ⌈2 ^ k * y⌉, k, k, e⟩ y := by
  unfold Box.has Box.lo Box.hi
  simp only
  rw [div_le_iff₀ (by positivity), le_div_iff₀ (by positivity)]
  exact ⟨by linarith [Int.floor_le (2 ^ k * y)], by linarith [Int.le_ceil (2 ^ k * y)]⟩

/-- The coordinates of an exact root are rounded to the requested precision. -/
theorem exactCoord_eq {p : Param} (hp : Good p) {numer : ℤ} {k : ℕ} (prec : ℕ)
    (hx : (rp p.elim p.nsols).eval ((numer : ℝ) / 2 ^ k) = 0) {q : Coord} (hq : q ∈ p.coords) :
    exactCoord p numer k prec q = some ⟨⌊2 ^ prec * coordVal p q ((numer : ℝ) / 2 ^ k)⌋,
      ⌈2 ^ prec * coordVal p q ((numer : ℝ) / 2 ^ k)⌉, prec, prec, true⟩ := by
  have hden := lval_denom_ne hp hx
  have hlen := hp.len q hq
  have hcf := hp.cf q hq
  have hcf' : (q.cf : ℝ) ≠ 0 := by exact_mod_cast hcf.ne'
  have hne : eval2exp p.denom p.dlen numer k * q.cf ≠ 0 := by
    refine mul_ne_zero ?_ hcf.ne'
    intro h
    have := eval2exp_lval p.denom p.dlen numer k
    rw [h, Int.cast_zero, eq_comm, mul_eq_zero] at this
    exact this.elim (by positivity) hden
  unfold exactCoord
  simp only
  rw [if_neg (not_or.mpr ⟨by rw [hp.dlen]; omega, hne⟩), fdiv_eq_floor _ hne, cdivq_eq_ceil _ hne]
  have hval : ((-eval2exp q.c q.len numer k * 2 ^ (k * (p.dlen - q.len) + prec) : ℤ) : ℝ) /
      ((eval2exp p.denom p.dlen numer k * q.cf : ℤ) : ℝ) = 2 ^ prec * coordVal p q ((numer : ℝ) / 2 ^ k) := by
    push_cast
    rw [eval2exp_lval, eval2exp_lval, coordVal]
    by_cases h0 : q.len = 0
    · simp [h0, lval]
    · have e : (2 : ℝ) ^ (k * (p.dlen - q.len) + prec) * 2 ^ (k * (q.len - 1)) = 2 ^ (k * (p.dlen - 1)) * 2 ^ prec := by
        rw [← pow_add, ← pow_add]
        congr 1
        have : k * (p.dlen - q.len) + k * (q.len - 1) = k * (p.dlen - 1) := by
          rw [← mul_add]; congr 1; have := hp.dlen; omega
        omega
      rw [← mul_div_assoc, div_eq_div_iff (by positivity) (by positivity)]
      linear_combination (-lval q.c q.len (↑numer / 2 ^ k) * (lval p.denom p.dlen (↑numer / 2 ^ k) * q.cf)) * e
  rw [hval]

theorem mapM_some {α β : Type*} {f : α → Option β} {g : α → β} (l : List α) (h : ∀ a ∈ l, f a = some (g a)) :
    l.mapM f = some (l.map g) := by
  induction l with
  | nil => rfl
  | cons a l ih =>
    rw [List.mapM_cons, h a List.mem_cons_self, ih fun b hb => h b (List.mem_cons_of_mem _ hb)]
    rfl

theorem forall₂_map {α β γ : Type*} {R : β → γ → Prop} {f : α → β} {g : α → γ} (l : List α) (h : ∀ a ∈ l, R (f a) (g a)) :
    List.Forall₂ R (l.map f) (l.map g) := by
  rw [List.forall₂_map_left_iff, List.forall₂_map_right_iff, List.forall₂_same]
  exact h

theorem lastCell_append (l : List Box) (b : Box) : lastCell (l ++ [b]) = ⟨b.lo, b.hi, b.exact⟩ := by
  unfold lastCell; rw [List.getLast?_append]; rfl

theorem exactPoint_spec {p : Param} (hp : Good p) {numer : ℤ} {k : ℕ} (prec : ℕ)
    (hx : (rp p.elim p.nsols).eval ((numer : ℝ) / 2 ^ k) = 0) :
    ∃ bs, exactPoint p numer k prec = some bs ∧ Encloses bs (point p ((numer : ℝ) / 2 ^ k)) ∧
      lastCell bs = ⟨(numer : ℝ) / 2 ^ k, (numer : ℝ) / 2 ^ k, true⟩ := by
  unfold exactPoint
  rw [mapM_some p.coords fun q hq => exactCoord_eq hp prec hx hq]
  refine ⟨_, rfl, ?_, ?_⟩
  · refine List.rel_append (forall₂_map _ fun q hq => has_round) (List.Forall₂.cons ⟨le_rfl, le_rfl⟩ List.Forall₂.nil)
  · rw [lastCell_append]; rfl

/-- A coordinate of a root that is not exact. -/
theorem openCoord_spec {p : Param} {numer : ℤ} {k corr : ℕ} (prec : ℕ) {dd du : ℤ} (old : ℤ × ℤ) (hd : dd ≤ du)
    (hs : 0 < dd ∨ du < 0) {q : Coord} (hlen : q.len ≤ p.nsols) (hcf : 0 < q.cf) :
    ∃ b, openCoord p numer k corr prec dd du old q = some b ∧ ∀ x : ℝ, (numer : ℝ) ≤ 2 ^ k * x → 2 ^ k * x ≤ numer + 1 →
      (dd : ℝ) ≤ 2 ^ corr * lval p.denom p.dlen x → 2 ^ corr * lval p.denom p.dlen x ≤ du → b.has (coordVal p q x) := by
  unfold openCoord
  have hz1 : dd * q.cf ≠ 0 := mul_ne_zero (by omega) (by omega)
  have hz2 : du * q.cf ≠ 0 := mul_ne_zero (by omega) (by omega)
  rw [if_neg (by push Not; exact ⟨hlen, hz1, hz2⟩)]
  simp only
  have hle : (scalarProd q.c q.len (tableFull numer k corr) corr).1 ≤ (scalarProd q.c q.len (tableFull numer k corr) corr).2 := by
    have := scalarProd_encl (r := numer) (k := k) (x := numer / 2 ^ k) (by field_simp; exact le_rfl) (by field_simp; linarith)
      q.c q.len corr
    exact_mod_cast this.1.trans this.2
  have henc := fun (x : ℝ) h1 h2 => scalarProd_encl (r := numer) (k := k) (x := x) h1 h2 q.c q.len corr
  generalize scalarProd q.c q.len (tableFull numer k corr) corr = s at *
  generalize decOf prec (-s.1) du q.cf = dec
  have hpow : (0 : ℤ) < 2 ^ dec := by positivity
  have hv : -s.2 * 2 ^ dec ≤ -s.1 * 2 ^ dec := by nlinarith
  rw [if_neg (not_lt.mpr hv), boxDiv_eq old hv hd hs hcf]
  refine ⟨_, rfl, fun x h1 h2 h3 h4 => ?_⟩
  obtain ⟨e1, e2⟩ := henc x h1 h2
  have hcf' : (0 : ℝ) < q.cf := by exact_mod_cast hcf
  have hp : (0 : ℝ) < 2 ^ dec := by positivity
  have hc : (0 : ℝ) < 2 ^ corr := by positivity
  have hden : lval p.denom p.dlen x ≠ 0 := by
    intro h0
    rw [h0, mul_zero] at h3 h4
    rcases hs with h | h
    · have : (0 : ℝ) < dd := by exact_mod_cast h
      linarith
    · have : (du : ℝ) < 0 := by exact_mod_cast h
      linarith
  have hq := quo_encl (vd := ((-s.2 * 2 ^ dec : ℤ) : ℝ)) (vu := ((-s.1 * 2 ^ dec : ℤ) : ℝ)) (dd := ((dd * q.cf : ℤ) : ℝ))
    (du := ((du * q.cf : ℤ) : ℝ)) (V := -(2 ^ corr * lval q.c q.len x) * 2 ^ dec) (D := 2 ^ corr * lval p.denom p.dlen x * q.cf)
    (by push_cast; nlinarith) (by push_cast; nlinarith) (by push_cast; nlinarith) (by push_cast; nlinarith)
    (hs.imp (fun h => by exact_mod_cast mul_pos h hcf) fun h => by exact_mod_cast mul_neg_of_neg_of_pos h hcf)
  have hVD : -(2 ^ corr * lval q.c q.len x) * 2 ^ dec / (2 ^ corr * lval p.denom p.dlen x * q.cf) = 2 ^ dec * coordVal p q x := by
    rw [coordVal]; field_simp
  rw [hVD] at hq
  unfold Box.has Box.lo Box.hi
  simp only
  rw [div_le_iff₀ hp, le_div_iff₀ hp]
  constructor
  · linarith [hq.1, Int.floor_le (quoMin ((-s.2 * 2 ^ dec : ℤ) : ℝ) ((-s.1 * 2 ^ dec : ℤ) : ℝ) ((dd * q.cf : ℤ) : ℝ) ((du * q.cf : ℤ) : ℝ))]
  · linarith [hq.2, Int.le_ceil (quoMax ((-s.2 * 2 ^ dec : ℤ) : ℝ) ((-s.1 * 2 ^ dec : ℤ) : ℝ) ((dd * q.cf : ℤ) : ℝ) ((du * q.cf : ℤ) : ℝ))]

theorem openCoords_spec {p : Param} {numer : ℤ} {k corr : ℕ} (prec : ℕ) {dd du : ℤ} (hd : dd ≤ du)
    (hs : 0 < dd ∨ du < 0) (l : List Coord) : ∀ (old : ℤ × ℤ), (∀ q ∈ l, q.len ≤ p.nsols) → (∀ q ∈ l, 0 < q.cf) →
    ∃ bs, openCoords p numer k corr prec dd du old l = some bs ∧ bs.length = l.length ∧
      ∀ x : ℝ, (numer : ℝ) ≤ 2 ^ k * x → 2 ^ k * x ≤ numer + 1 →
      (dd : ℝ) ≤ 2 ^ corr * lval p.denom p.dlen x → 2 ^ corr * lval p.denom p.dlen x ≤ du →
        Encloses bs (l.map fun q => coordVal p q x) := by
  induction l with
  | nil => intro old _ _; exact ⟨[], rfl, rfl, fun x _ _ _ _ => List.Forall₂.nil⟩
  | cons q l ih =>
    intro old h1 h2
    obtain ⟨b, hb, hbx⟩ := openCoord_spec (p := p) (numer := numer) (k := k) (corr := corr) prec old hd hs
      (h1 q List.mem_cons_self) (h2 q List.mem_cons_self)
    obtain ⟨bs, hbs, hl, hbsx⟩ := ih (b.vdo, b.vup) (fun q hq => h1 q (List.mem_cons_of_mem _ hq))
      fun q hq => h2 q (List.mem_cons_of_mem _ hq)
    refine ⟨b :: bs, ?_, by simp [hl], fun x a1 a2 a3 a4 => List.Forall₂.cons (hbx x a1 a2 a3 a4) (hbsx x a1 a2 a3 a4)⟩
    rw [openCoords, hb]
    simp only [hbs, Option.map_some]

/-- The box of the point at `x`. -/
theorem finishPoint_spec {p : Param} (hp : Good p) (prec : ℕ) {x : ℝ} (hx : (rp p.elim p.nsols).eval x = 0) {rt : Ival}
    (hk : 0 ≤ rt.k) {res : Ival × ℕ × ℤ × ℤ} (h : Final p x rt res) :
    ∃ bs, finishPoint p prec res = some bs ∧ bs.length = p.coords.length + 1 ∧
      (res.1.exact = false → Safe p x res.1.numer res.1.k.toNat → Encloses bs (point p x)) ∧
      (res.1.exact = true → Encloses bs (point p x)) ∧ x ∈ (lastCell bs).set ∧ (lastCell bs).set = (icell res.1).set := by
  obtain ⟨rt', corr, lo, hi⟩ := res
  rcases h with ⟨hex, hxe, hk'⟩ | ⟨hex, hk', _, _, g1, g2, hnv⟩
  · simp only at hex hxe hk'
    rw [(icell_pos hk').1] at hxe
    subst hxe
    obtain ⟨bs, hbs, henc, hlast⟩ := exactPoint_spec hp (max prec rt'.k.toNat) hx
    refine ⟨bs, ?_, ?_, fun h => absurd h (by simp [hex]), fun _ => henc, ?_, ?_⟩
    · unfold finishPoint
      simp only
      rw [if_neg (by omega), if_pos hex, hbs]
    · rw [henc.length_eq]; simp [point]
    · rw [hlast]; simp [Cell.set]
    · rw [hlast]
      have : (icell rt').exact = true := hex
      simp only [Cell.set, if_true, this, (icell_pos hk').1]
  · simp only at hex hk' g1 g2 hnv
    obtain ⟨d, hd⟩ : ∃ d, p.dlen = d + 1 := ⟨p.nsols - 1, by have := hp.ns; rw [hp.dlen]; omega⟩
    rw [hd] at hnv
    obtain ⟨n1, n2, n3⟩ := newvalue_false hnv
    obtain ⟨c1, c2⟩ := cell_scaled (hk.trans hk') g1 g2
    obtain ⟨bs, hbs, hl, henc⟩ := openCoords_spec (p := p) (numer := rt'.numer) (k := rt'.k.toNat) (corr := corr) prec n1 n2 p.coords
      (0, 0) hp.len hp.cf
    have hlast : lastCell (bs ++ [⟨rt'.numer, rt'.numer + 1, rt'.k.toNat, rt'.k.toNat, false⟩]) = ⟨(icell rt').lo, (icell rt').hi, false⟩ := by
      rw [lastCell_append, (icell_pos (hk.trans hk')).1, (icell_pos (hk.trans hk')).2]
      simp [Box.lo, Box.hi]
    refine ⟨bs ++ [⟨rt'.numer, rt'.numer + 1, rt'.k.toNat, rt'.k.toNat, false⟩], ?_, by simp [hl], fun _ hsafe => ?_,
      fun h => absurd h (by simp [hex]), ?_, ?_⟩
    · unfold finishPoint
      simp only
      rw [if_neg (by omega), if_neg (by simp [hex]), hbs]
      rfl
    · have hS : ∀ j < d, ¬ Straddles (iv p.denom d rt'.k.toNat rt'.numer (rt'.numer + 1) j) ∨ hv p.denom d x j = 0 := by
        have := hsafe
        unfold Safe at this
        simpa only [hd, Nat.add_sub_cancel] using this
      obtain ⟨i1, i2⟩ := iv_encl (ends_succ rt'.numer) p.denom d rt'.k.toNat c1 (by push_cast; exact c2) d hS
      rw [hv_deg, ← lval_succ, ← hd] at i1 i2
      obtain ⟨m1, m2⟩ := n3 _ i1 i2
      refine List.rel_append (henc x c1 c2 m1 m2) (List.Forall₂.cons ?_ List.Forall₂.nil)
      unfold Box.has Box.lo Box.hi
      simp only
      rw [div_le_iff₀ (by positivity), le_div_iff₀ (by positivity)]
      push_cast
      constructor <;> linarith
    · rw [hlast]; simp only [Cell.set, Bool.false_eq_true, if_false]; exact ⟨g1, g2⟩
    · rw [hlast]
      have : (icell rt').exact = false := hex
      simp only [Cell.set, Bool.false_eq_true, if_false, this]

/-! ### Normalization -/

theorem twoLoop_spec {v : ℤ} (hv : v ≠ 0) : ∀ (n b : ℕ), (2 : ℤ) ^ b ∣ v → |v| < 2 ^ (b + n) →
    (2 : ℤ) ^ twoLoop v n b ∣ v ∧ ¬ (2 : ℤ) ^ (twoLoop v n b + 1) ∣ v
  | 0, b, h, hlt => by
    exact absurd (Int.eq_zero_of_abs_lt_dvd h (by simpa using hlt)) hv
  | n + 1, b, h, hlt => by
    rw [twoLoop]
    split
    · rename_i h1
      exact twoLoop_spec hv n (b + 1) (Int.dvd_of_emod_eq_zero h1.2) (by rw [show b + 1 + n = b + (n + 1) by ring]; exact hlt)
    · rename_i h1
      exact ⟨h, fun hd => h1 ⟨hv, Int.emod_eq_zero_of_dvd hd⟩⟩

theorem twoLoop_zero (n b : ℕ) : twoLoop 0 n b = b := by
  cases n <;> simp [twoLoop]

/-- The value is kept, and the fraction is in lowest terms. -/
theorem normBound_spec (v : ℤ) (k : ℕ) : ((normBound v k).1 : ℝ) / 2 ^ (normBound v k).2 = (v : ℝ) / 2 ^ k ∧
    (v ≠ 0 → (normBound v k).2 = 0 ∨ (normBound v k).1 % 2 = 1) := by
  by_cases hv : v = 0
  · subst hv
    have : normBound 0 k = (0, k) := by unfold normBound; simp [twoLoop_zero]
    rw [this]; simp
  · obtain ⟨h1, h2⟩ := twoLoop_spec hv (bitSize v) 0 (by simp) (by rw [zero_add]; exact UBound.abs_lt_bitSize v)
    unfold normBound
    simp only
    generalize twoLoop v (bitSize v) 0 = c at *
    have hb : (2 : ℤ) ^ min c k ∣ v := (pow_dvd_pow 2 (min_le_left c k)).trans h1
    obtain ⟨w, hw⟩ := hb
    have hpz : (2 : ℤ) ^ min c k ≠ 0 := by positivity
    have hdiv : v.tdiv (2 ^ min c k) = w := by rw [hw, Int.mul_tdiv_cancel_left _ hpz]
    have hkb : min c k ≤ k := min_le_right c k
    have hodd : min c k = c → w % 2 = 1 := by
      intro hc
      by_contra hne
      obtain ⟨u, hu⟩ : (2 : ℤ) ∣ w := Int.dvd_of_emod_eq_zero (by omega)
      rw [hc] at hw
      exact h2 ⟨u, by rw [hw, hu, pow_succ]; ring⟩
    split
    · simp only [hdiv]
      refine ⟨?_, fun _ => ?_⟩
      · have e : (2 : ℝ) ^ k = 2 ^ min c k * 2 ^ (k - min c k) := by rw [← pow_add]; congr 1; omega
        have hv' : (v : ℝ) = 2 ^ min c k * w := by exact_mod_cast hw
        rw [e, hv']; field_simp
      · by_cases hc : min c k = c
        · exact Or.inr (hodd hc)
        · left; omega
    · rename_i hb0
      push Not at hb0
      refine ⟨rfl, fun _ => ?_⟩
      simp only
      by_cases hc : min c k = c
      · right
        have := hodd hc
        rw [hb0, pow_zero, one_mul] at hw
        rw [hw]; exact this
      · left; omega

theorem normBox_lo (b : Box) : (normBox b).lo = b.lo := (normBound_spec b.vdo b.kdo).1
theorem normBox_hi (b : Box) : (normBox b).hi = b.hi := (normBound_spec b.vup b.kup).1

theorem encloses_norm {bs : List Box} {ys : List ℝ} (h : Encloses bs ys) : Encloses (bs.map normBox) ys := by
  unfold Encloses at h ⊢
  rw [List.forall₂_map_left_iff]
  exact h.imp fun b y hb => by unfold Box.has at hb ⊢; rw [normBox_lo, normBox_hi]; exact hb

theorem lastCell_norm (bs : List Box) : lastCell (bs.map normBox) = lastCell bs := by
  unfold lastCell
  rw [List.getLast?_map]
  cases bs.getLast? with
  | none => rfl
  | some b => simp only [Option.map_some, normBox_lo, normBox_hi]; rfl

/-! ### One root -/

theorem lazySingle_spec (shl : ℕ → ℤ) {p : Param} (hp : Good p) (prec : ℕ) {x : ℝ} (hx : (rp p.elim p.nsols).eval x = 0) {rt : Ival}
    (h : rt.exact = true ∧ 0 ≤ rt.k ∧ (icell rt).lo = x ∨ At (rp p.elim p.nsols) x rt) :
    ∃ (K : ℕ) (rt' : Ival) (bs : List Box), (∀ fuel ≥ K, lazySingle shl fuel p prec rt = .done bs) ∧
      bs.length = p.coords.length + 1 ∧ (rt.exact = true → rt'.exact = true) ∧
      (rt'.exact = false → rt.k ≤ rt'.k ∧ (rt'.numer : ℝ) ≤ 2 ^ rt'.k.toNat * x ∧ 2 ^ rt'.k.toNat * x ≤ rt'.numer + 1) ∧
      (rt'.exact = true ∨ Safe p x rt'.numer rt'.k.toNat → Encloses bs (point p x)) ∧
      x ∈ (lastCell bs).set ∧ (lastCell bs).set ⊆ (icell rt).set := by
  have key : ∃ K res, (∀ fuel ≥ K, denLoop shl fuel p fuel rt (2 * (p.nsols + rt.k.toNat)) = .done res) ∧ Final p x rt res ∧ 0 ≤ rt.k ∧
      (icell res.1).set ⊆ (icell rt).set ∧ (rt.exact = true → res.1.exact = true) := by
    rcases h with ⟨h1, h2, h3⟩ | h
    · refine ⟨1, (rt, 0, 0, 0), fun fuel hf => ?_, Or.inl ⟨h1, h3, h2⟩, h2, subset_rfl, id⟩
      obtain ⟨n, rfl⟩ : ∃ n', fuel = n' + 1 := ⟨fuel - 1, by omega⟩
      rw [denLoop, if_pos h1]
    · obtain ⟨d, hd⟩ : ∃ d, p.dlen = d + 1 := ⟨p.nsols - 1, by have := hp.ns; rw [hp.dlen]; omega⟩
      have hne := lval_denom_ne hp hx
      rw [hd] at hne
      obtain ⟨P, hP⟩ := newvalue_eventually p.denom d hne
      rw [← hd] at hP
      obtain ⟨K, res, hrun, hfin⟩ := denLoop_spec shl hp hx hP P rt (2 * (p.nsols + rt.k.toNat)) h
        (by have := hp.ns; omega) (by omega) (by omega)
      refine ⟨K, res, fun fuel hf => hrun fuel hf fuel hf, hfin, h.k.le, ?_, fun hc => by rw [h.ex] at hc; cases hc⟩
      have hrt : (icell rt).exact = false := h.ex
      rcases hfin with ⟨f1, f2, _⟩ | ⟨f1, _, f3, f4, _⟩
      · have : (icell res.1).exact = true := f1
        simp only [Cell.set, this, hrt, if_true, Bool.false_eq_true, if_false, f2]
        intro y hy
        rw [Set.mem_singleton_iff.mp hy]; exact ⟨h.lo, h.hi⟩
      · have : (icell res.1).exact = false := f1
        simp only [Cell.set, this, hrt, Bool.false_eq_true, if_false]
        exact Set.Ioo_subset_Ioo f3 f4
  obtain ⟨K, res, hrun, hfin, hk, hsub, hee⟩ := key
  obtain ⟨bs, hbs, hl, ho, he, hm, hs⟩ := finishPoint_spec hp prec hx hk hfin
  refine ⟨K, res.1, bs, fun fuel hf => ?_, hl, hee, fun hex => ?_, ?_, hm, hs ▸ hsub⟩
  · unfold lazySingle
    simp only [hrun fuel hf, hbs]
  · rcases hfin with ⟨f1, _⟩ | ⟨_, f2, _, _, f5, f6, _⟩
    · rw [hex] at f1; cases f1
    · exact ⟨f2, cell_scaled (hk.trans f2) f5 f6⟩
  · rintro (h1 | h1)
    · exact he h1
    · cases hex : res.1.exact with
      | true => exact he hex
      | false => exact ho hex h1

/-! ### All roots -/

theorem extractRoots_spec (shl : ℕ → ℤ) (p : Param) (prec : ℕ) {R : Ival → List Box → Prop} (L : List Ival)
    (h : ∀ rt ∈ L, ∃ K b, (∀ fuel ≥ K, lazySingle shl fuel p prec rt = .done b) ∧ R rt (b.map normBox)) :
    ∃ K out, (∀ fuel ≥ K, extractRoots shl fuel p prec L = .done out) ∧ List.Forall₂ R L out := by
  induction L with
  | nil => exact ⟨0, [], fun _ _ => rfl, List.Forall₂.nil⟩
  | cons rt L ih =>
    obtain ⟨K1, b, hb, hR⟩ := h rt List.mem_cons_self
    obtain ⟨K2, out, ho, hF⟩ := ih fun r hr => h r (List.mem_cons_of_mem _ hr)
    refine ⟨max K1 K2, b.map normBox :: out, fun fuel hf => ?_, List.Forall₂.cons hR hF⟩
    rw [extractRoots, hb fuel (le_trans (le_max_left _ _) hf)]
    simp only [ho fuel (le_trans (le_max_right _ _) hf)]

theorem forall₂_mem {A B : Type*} {R : A → B → Prop} {L : List A} {out : List B} (hF : List.Forall₂ R L out) {b : B} (hb : b ∈ out) :
    ∃ a ∈ L, R a b := by
  induction hF with
  | nil => simp at hb
  | cons hab _ ih =>
    rcases List.mem_cons.mp hb with rfl | hb
    · exact ⟨_, List.mem_cons_self, hab⟩
    · obtain ⟨a, ha, h⟩ := ih hb
      exact ⟨a, List.mem_cons_of_mem _ ha, h⟩

theorem isolates_forall₂ {P : ℝ[X]} {I : Set ℝ} {A B : Type*} {f : A → Cell} {g : B → Cell} {L : List A} {out : List B}
    (h : Isolates P I (L.map f)) (hF : List.Forall₂ (fun a b => (g b).set ⊆ (f a).set ∧ ∃ x ∈ (g b).set, P.eval x = 0) L out) :
    Isolates P I (out.map g) := by
  have hr : ∀ b ∈ out, ∃ a ∈ L, (g b).set ⊆ (f a).set ∧ ∃ x ∈ (g b).set, P.eval x = 0 := fun b hb => forall₂_mem hF hb
  have hl : ∀ a ∈ L, ∃ b ∈ out, (g b).set ⊆ (f a).set ∧ ∃ x ∈ (g b).set, P.eval x = 0 := fun a ha => forall₂_mem hF.flip ha
  refine ⟨fun r hr' => ?_, fun r hr' => ?_, fun x hx h0 => ?_, ?_⟩
  · obtain ⟨b, hb, rfl⟩ := List.mem_map.mp hr'
    obtain ⟨a, ha, hsub, x, hx, h0⟩ := hr b hb
    exact ⟨x, ⟨hx, h0⟩, fun y hy => (h.unique _ (List.mem_map_of_mem ha)).unique ⟨hsub hy.1, hy.2⟩ ⟨hsub hx, h0⟩⟩
  · obtain ⟨b, hb, rfl⟩ := List.mem_map.mp hr'
    obtain ⟨a, ha, hsub, _⟩ := hr b hb
    exact hsub.trans (h.sub _ (List.mem_map_of_mem ha))
  · obtain ⟨r, hr', hxr⟩ := h.cover x hx h0
    obtain ⟨a, ha, rfl⟩ := List.mem_map.mp hr'
    obtain ⟨b, hb, hsub, y, hy, hy0⟩ := hl a ha
    refine ⟨g b, List.mem_map_of_mem hb, ?_⟩
    rw [(h.unique _ (List.mem_map_of_mem ha)).unique ⟨hxr, h0⟩ ⟨hsub hy, hy0⟩]
    exact hy
  · have ho := h.order
    clear h hr hl
    induction hF with
    | nil => exact List.Pairwise.nil
    | cons hab hF ih =>
      rw [List.map_cons, List.pairwise_cons] at ho ⊢
      refine ⟨fun r hr' x hx y hy => ?_, ih ho.2⟩
      obtain ⟨b, hb, rfl⟩ := List.mem_map.mp hr'
      obtain ⟨a, ha, hsub, _⟩ := forall₂_mem hF hb
      exact ho.1 _ (List.mem_map_of_mem ha) x (hab.1 hx) y (hsub hy)

/-- The roots are not closer than the precision of the isolation. -/
def Apart (P : ℝ[X]) (n : ℕ) : Prop := ∀ x y, P.eval x = 0 → P.eval y = 0 → x ≠ y → 1 / 2 ^ n ≤ |x - y|

theorem isolateParam_spec (shl : ℕ → ℤ) {p : Param} (hp : Good p) (precision : ℕ) (hap : Apart (rp p.elim p.nsols) (isoPrec p precision)) :
    ∃ K out, (∀ fuel ≥ K, isolateParam shl fuel p precision = .done out) ∧ Isolates (rp p.elim p.nsols) Set.univ (out.map lastCell) ∧
      ∀ bs ∈ out, bs.length = p.coords.length + 1 ∧ ∃ x, (rp p.elim p.nsols).eval x = 0 ∧ x ∈ (lastCell bs).set ∧
        ((∀ k ≥ isoPrec p precision, ∀ r : ℤ, (r : ℝ) ≤ 2 ^ k * x → 2 ^ k * x ≤ r + 1 → Safe p x r k) → Encloses bs (point p x)) := by
  obtain ⟨K0, roots, nbpos, nbneg, hrun, hiso, _, _, _, hprec, hexk⟩ :=
    realRoots_spec shl (isoPrec p precision) hp.ns hp.lead hp.simple
  have hge : 128 ≤ isoPrec p precision := by
    unfold isoPrec; exact le_trans (Nat.le_add_right _ _) (le_max_right _ _)
  have hone : ∀ rt ∈ roots, ∃ K b, (∀ fuel ≥ K, lazySingle shl fuel p precision rt = .done b) ∧
      (((lastCell (b.map normBox)).set ⊆ (icell rt).set ∧ ∃ x ∈ (lastCell (b.map normBox)).set, (rp p.elim p.nsols).eval x = 0) ∧
        (b.map normBox).length = p.coords.length + 1 ∧ ∃ x, (rp p.elim p.nsols).eval x = 0 ∧ x ∈ (lastCell (b.map normBox)).set ∧
        ((∀ k ≥ isoPrec p precision, ∀ r : ℤ, (r : ℝ) ≤ 2 ^ k * x → 2 ^ k * x ≤ r + 1 → Safe p x r k) →
          Encloses (b.map normBox) (point p x))) := by
    intro rt hrt
    obtain ⟨x, ⟨hxm, hx0⟩, hxu⟩ := hiso.unique _ (List.mem_map_of_mem hrt)
    have hat : rt.exact = true ∧ 0 ≤ rt.k ∧ (icell rt).lo = x ∨ At (rp p.elim p.nsols) x rt := by
      cases hex : rt.exact with
      | true =>
        left
        have he : (icell rt).exact = true := hex
        simp only [Cell.set, he, if_true, Set.mem_singleton_iff] at hxm
        exact ⟨rfl, hexk rt hrt hex, hxm.symm⟩
      | false =>
        right
        have he : (icell rt).exact = false := hex
        simp only [Cell.set, he, Bool.false_eq_true, if_false] at hxm hxu
        have hk : (isoPrec p precision : ℤ) ≤ rt.k := (hprec (by omega) rt hrt).resolve_left (by simp [hex])
        have hk0 : 0 ≤ rt.k := by omega
        have hw : (icell rt).hi - (icell rt).lo ≤ 1 / 2 ^ isoPrec p precision := by
          obtain ⟨e1, e2⟩ := icell_pos hk0
          rw [e1, e2, ← sub_div, add_sub_cancel_left]
          exact one_div_le_one_div_of_le (by positivity) (pow_le_pow_right₀ (by norm_num) (by omega))
        have hlo : (rp p.elim p.nsols).eval (icell rt).lo ≠ 0 := by
          intro h
          have := hap x _ hx0 h (by have := hxm.1; exact this.ne')
          rw [abs_of_pos (by linarith [hxm.1])] at this
          linarith [hxm.2]
        have hhi : (rp p.elim p.nsols).eval (icell rt).hi ≠ 0 := by
          intro h
          have := hap _ x h hx0 (by have := hxm.2; exact this.ne')
          rw [abs_of_pos (by linarith [hxm.2])] at this
          linarith [hxm.1]
        have hu : ∀ y, (icell rt).lo < y → y < (icell rt).hi → (rp p.elim p.nsols).eval y = 0 → y = x :=
          fun y y1 y2 y0 => hxu y ⟨⟨y1, y2⟩, y0⟩
        exact ⟨hex, by omega, hxm.1, hxm.2, hu, one_root_sign hp.simple hxm.1 hxm.2 hx0 hlo hhi hu⟩
    obtain ⟨K, rt', bs, hbs, hl, hee, hk', henc, hmem, hsub⟩ := lazySingle_spec shl hp precision hx0 hat
    refine ⟨K, bs, hbs, ?_⟩
    rw [lastCell_norm, List.length_map]
    refine ⟨⟨hsub, x, hmem, hx0⟩, hl, x, hx0, hmem, fun hsafe => encloses_norm (henc ?_)⟩
    cases hex : rt'.exact with
    | true => exact Or.inl rfl
    | false =>
      right
      obtain ⟨g1, g2, g3⟩ := hk' hex
      rcases hat with ⟨ha, _, hlo⟩ | hat
      · rw [hee ha] at hex; cases hex
      · have hk : (isoPrec p precision : ℤ) ≤ rt.k := (hprec (by omega) rt hrt).resolve_left (by simp [hat.ex])
        exact hsafe _ (by omega) _ g2 g3
  obtain ⟨K1, out, hout, hF⟩ := extractRoots_spec shl p precision
    (R := fun rt bs => ((lastCell bs).set ⊆ (icell rt).set ∧ ∃ x ∈ (lastCell bs).set, (rp p.elim p.nsols).eval x = 0) ∧
      bs.length = p.coords.length + 1 ∧ ∃ x, (rp p.elim p.nsols).eval x = 0 ∧ x ∈ (lastCell bs).set ∧
      ((∀ k ≥ isoPrec p precision, ∀ r : ℤ, (r : ℝ) ≤ 2 ^ k * x → 2 ^ k * x ≤ r + 1 → Safe p x r k) → Encloses bs (point p x))) roots hone
  refine ⟨max K0 K1, out, fun fuel hf => ?_, isolates_forall₂ hiso (hF.imp fun a b hab => hab.1), fun bs hbs => ?_⟩
  · unfold isolateParam
    simp only [hrun fuel (le_trans (le_max_left _ _) hf)]
    exact hout fuel (le_trans (le_max_right _ _) hf)
  · exact forall₂_right hF (p := fun _ => True) (fun _ _ => trivial) (fun a b hab _ => hab.2) bs hbs

end Verif.RealPoints
