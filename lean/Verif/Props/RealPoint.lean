import Verif.RealAll
import Verif.Props.Usolve
import Mathlib.Tactic.IntervalCases

/-!
C35-C38, C54: interval evaluation, the coordinates of the real solutions and their display.
-/
namespace Verif.Props
open Verif.UPoly Verif.UEval Verif.UIsolate Verif.Isolate Verif.URefine Verif.Spec Verif.RealPoints
open Polynomial

/-! ### C35 -/

/-- `4x^2 - 6x - 3`. -/
private def ivp : ℕ → ℤ := fun i => if i = 0 then -3 else if i = 1 then -6 else if i = 2 then 4 else 0

/-- C35: the interval evaluation does not always enclose the values.  For `4x^2 - 6x - 3` on `[1, 2]` it returns
`[-7, -1]`, but the value at `2` is `1`. -/
theorem C35_not_enclosing : evalInterval ivp 3 0 1 2 = some (-7, -1) ∧ (toPoly ivp 2).eval 2 = 1 := by
  refine ⟨by decide, ?_⟩
  simp [toPoly, Finset.sum_range_succ, ivp]

/-- C35: on an interval with ends of the same sign the evaluation never leaves the program, and returns ordered
bounds. -/
theorem C35_interval_total (up : ℕ → ℤ) (deg k : ℕ) {a b : ℤ} (hab : a ≤ b) (hs : 0 ≤ a ∨ b ≤ 0) :
    ∃ lo hi, evalInterval up (deg + 1) k a b = some (lo, hi) ∧ lo ≤ hi := by
  have h : Ends a b := ⟨hab, hs⟩
  exact ⟨_, _, evalInterval_some h up deg k, iv_le h up deg k deg⟩

/-- C35: as long as no intermediate interval of Horner's rule has points on both sides of zero (the last one may),
the evaluation returns the natural interval extension of Horner's rule, and encloses all values of the polynomial on
`[a / 2^k, b / 2^k]`. -/
theorem C35_interval_partial (up : ℕ → ℤ) (deg k : ℕ) {a b : ℤ} (hab : a ≤ b) (hs : 0 ≤ a ∨ b ≤ 0)
    (hn : ∀ j < deg, ¬ Straddles (hornerIv up deg k a b j)) :
    ∃ lo hi, evalInterval up (deg + 1) k a b = some (lo, hi) ∧ (lo, hi) = hornerIv up deg k a b deg ∧
      ∀ x : ℝ, (a : ℝ) / 2 ^ k ≤ x → x ≤ (b : ℝ) / 2 ^ k →
        (lo : ℝ) ≤ 2 ^ (k * deg) * aeval x (toPoly up deg) ∧ 2 ^ (k * deg) * aeval x (toPoly up deg) ≤ hi := by
  have h : Ends a b := ⟨hab, hs⟩
  refine ⟨_, _, evalInterval_some h up deg k, iv_eq_hornerIv h up deg k deg hn, fun x h1 h2 => ?_⟩
  have hk : (0 : ℝ) < 2 ^ k := by positivity
  rw [div_le_iff₀ hk] at h1
  rw [le_div_iff₀ hk] at h2
  have := iv_encl h up deg k (x := x) (by linarith) (by linarith) deg fun j hj => Or.inl (by
    rw [iv_eq_hornerIv h up deg k j fun i hi => hn i (by omega)]
    exact hn j hj)
  rwa [hv_deg] at this

/-- The hypotheses are met: `x^2 - 2` on `[3/2, 2]`. -/
example : ∀ j < 2, ¬ Straddles (hornerIv (fun i => if i = 0 then -2 else if i = 2 then 1 else 0) 2 1 3 4 j) := by
  unfold Straddles; decide

/-- C35: at every point the evaluation on the dyadic interval of width `2^-k` around it encloses the value, for all
precisions `k` from some one on. -/
theorem C35_precision_partial (up : ℕ → ℤ) (deg : ℕ) (x : ℝ) : ∃ P : ℕ, ∀ k ≥ P, ∀ r : ℤ, (r : ℝ) / 2 ^ k ≤ x →
    x ≤ ((r : ℝ) + 1) / 2 ^ k → ∃ lo hi, evalInterval up (deg + 1) k r (r + 1) = some (lo, hi) ∧
      (lo : ℝ) ≤ 2 ^ (k * deg) * aeval x (toPoly up deg) ∧ 2 ^ (k * deg) * aeval x (toPoly up deg) ≤ hi := by
  obtain ⟨P, hP⟩ := noStraddle_eventually up deg x deg
  refine ⟨P, fun k hk r h1 h2 => ⟨_, _, evalInterval_some (ends_succ r) up deg k, ?_⟩⟩
  have hk' : (0 : ℝ) < 2 ^ k := by positivity
  rw [div_le_iff₀ hk'] at h1
  rw [le_div_iff₀ hk'] at h2
  have := iv_encl (ends_succ r) up deg k (x := x) (by linarith) (by push_cast; linarith) deg
    (hP k hk r (by linarith) (by linarith))
  rwa [hv_deg] at this

/-! ### C36 -/

/-- C36: the table of powers holds the range of each power over `[r / 2^k, (r + 1) / 2^k]`, scaled by `2^corr` and
rounded outwards. -/
theorem C36_table (r : ℤ) (k corr i : ℕ) :
    tableFull r k corr i = (⌊(2 : ℝ) ^ corr * min (((r : ℝ) / 2 ^ k) ^ i) ((((r : ℝ) + 1) / 2 ^ k) ^ i)⌋,
      ⌈(2 : ℝ) ^ corr * max (((r : ℝ) / 2 ^ k) ^ i) ((((r : ℝ) + 1) / 2 ^ k) ^ i)⌉) := tableFull_eq r k corr i

/-- C36: each power of a point of the interval lies between its two entries. -/
theorem C36_powers {r : ℤ} {k : ℕ} (corr i : ℕ) {x : ℝ} (h1 : (r : ℝ) / 2 ^ k ≤ x) (h2 : x ≤ ((r : ℝ) + 1) / 2 ^ k) :
    ((tableFull r k corr i).1 : ℝ) ≤ 2 ^ corr * x ^ i ∧ 2 ^ corr * x ^ i ≤ (tableFull r k corr i).2 := by
  have hk' : (0 : ℝ) < 2 ^ k := by positivity
  rw [div_le_iff₀ hk'] at h1
  rw [le_div_iff₀ hk'] at h2
  exact tableFull_encl (by linarith) (by linarith) i

/-- C36: the scalar product with the table is the sum of the smallest and of the largest products. -/
theorem C36_scalar_product (c : ℕ → ℤ) (len : ℕ) (r : ℤ) (k corr : ℕ) :
    let t := tableFull r k corr
    scalarProd c len t corr = (∑ i ∈ Finset.range len, min (c i * (t i).1) (c i * (t i).2),
      ∑ i ∈ Finset.range len, max (c i * (t i).1) (c i * (t i).2)) :=
  scalarProd_eq c len _ corr (tableFull_le r k corr) (tableFull_zero r k corr)

/-- C36: it encloses the value of the polynomial at every point of the interval, whatever its coefficients. -/
theorem C36_enclosure (c : ℕ → ℤ) (len : ℕ) {r : ℤ} {k : ℕ} (corr : ℕ) {x : ℝ} (h1 : (r : ℝ) / 2 ^ k ≤ x)
    (h2 : x ≤ ((r : ℝ) + 1) / 2 ^ k) :
    ((scalarProd c len (tableFull r k corr) corr).1 : ℝ) ≤ 2 ^ corr * ∑ i ∈ Finset.range len, (c i : ℝ) * x ^ i ∧
      2 ^ corr * ∑ i ∈ Finset.range len, (c i : ℝ) * x ^ i ≤ (scalarProd c len (tableFull r k corr) corr).2 := by
  have hk' : (0 : ℝ) < 2 ^ k := by positivity
  rw [div_le_iff₀ hk'] at h1
  rw [le_div_iff₀ hk'] at h2
  exact scalarProd_encl (by linarith) (by linarith) c len corr

/-- An interval on the left of zero: `[-3/2, -1]`. -/
example : tableFull (-3) 1 4 2 = (16, 36) ∧ tableFull (-3) 1 4 3 = (-54, -16) := by decide

/-! ### C37 -/

/-- C37: the quotient bounds are the smallest and the largest quotient of the ends, rounded outwards, whatever the
signs of the numerator; `old` (the former contents of the output variables) does not matter. -/
theorem C37_division (old : ℤ × ℤ) {vd vu dd du cf : ℤ} (hv : vd ≤ vu) (hd : dd ≤ du) (hs : 0 < dd ∨ du < 0)
    (hc : 0 < cf) :
    let q : ℤ → ℤ → ℝ := fun v d => (v : ℝ) / (d * cf : ℤ)
    boxDiv old vd vu dd du cf = (⌊min (min (q vd dd) (q vd du)) (min (q vu dd) (q vu du))⌋,
      ⌈max (max (q vd dd) (q vd du)) (max (q vu dd) (q vu du))⌉) := boxDiv_eq old hv hd hs hc

/-- C37: every quotient of a number in the numerator interval by one in the denominator interval lies between them. -/
theorem C37_division_encloses (old : ℤ × ℤ) {vd vu dd du cf : ℤ} (hd : dd ≤ du) (hs : 0 < dd ∨ du < 0) (hc : 0 < cf)
    {v d : ℝ} (h1 : vd ≤ v) (h2 : v ≤ vu) (h3 : dd ≤ d) (h4 : d ≤ du) :
    ((boxDiv old vd vu dd du cf).1 : ℝ) ≤ v / (d * cf) ∧ v / (d * cf) ≤ (boxDiv old vd vu dd du cf).2 := by
  have hv : vd ≤ vu := by exact_mod_cast h1.trans h2
  have hc' : (0 : ℝ) < cf := by exact_mod_cast hc
  rw [boxDiv_eq old hv hd hs hc]
  have hq := quo_encl h1 h2 (dd := ((dd * cf : ℤ) : ℝ)) (du := ((du * cf : ℤ) : ℝ)) (D := d * cf)
    (by push_cast; exact mul_le_mul_of_nonneg_right h3 hc'.le) (by push_cast; exact mul_le_mul_of_nonneg_right h4 hc'.le)
    (by
      rcases hs with h | h
      · left; exact_mod_cast mul_pos h hc
      · right; exact_mod_cast mul_neg_of_neg_of_pos h hc)
  exact ⟨(Int.floor_le _).trans hq.1, hq.2.trans (Int.le_ceil _)⟩

example : boxDiv (7, 7) (-5) 4 (-3) (-2) 1 = (-2, 3) ∧ boxDiv (7, 7) (-5) 4 2 3 1 = (-3, 2) := by decide

/-- C37: at an exact root `numer / 2^k` each coordinate is rounded down and up to the requested number of bits. -/
theorem C37_exact_root {p : Param} (hp : Good p) {numer : ℤ} {k : ℕ} (prec : ℕ)
    (hx : (rp p.elim p.nsols).eval ((numer : ℝ) / 2 ^ k) = 0) {q : Coord} (hq : q ∈ p.coords) :
    exactCoord p numer k prec q = some ⟨⌊2 ^ prec * coordVal p q ((numer : ℝ) / 2 ^ k)⌋,
      ⌈2 ^ prec * coordVal p q ((numer : ℝ) / 2 ^ k)⌉, prec, prec, true⟩ := exactCoord_eq hp prec hx hq

/-! ### C38 -/

/-- C38: normalisation keeps both ends of the interval. -/
theorem C38_normalize (b : Box) : (normBox b).lo = b.lo ∧ (normBox b).hi = b.hi ∧ (normBox b).exact = b.exact :=
  ⟨normBox_lo b, normBox_hi b, rfl⟩

/-- C38: after it a nonzero end is an integer or a fraction in lowest terms. -/
theorem C38_lowest_terms (b : Box) :
    (b.vdo ≠ 0 → (normBox b).kdo = 0 ∨ (normBox b).vdo % 2 = 1) ∧
      (b.vup ≠ 0 → (normBox b).kup = 0 ∨ (normBox b).vup % 2 = 1) :=
  ⟨(normBound_spec b.vdo b.kdo).2, (normBound_spec b.vup b.kup).2⟩

/-- C38: the text written for a bound denotes its value. -/
theorem C38_display_bound (v : ℤ) (k : ℕ) : Writes (showBound v k) ((v : ℝ) / 2 ^ k) := by
  unfold showBound
  by_cases hv : v = 0
  · subst hv
    have := Writes.int 0
    simpa using this
  by_cases hk : k = 0
  · subst hk
    have := Writes.int v
    simpa using this
  · rw [if_pos ⟨hk, hv⟩]
    by_cases h1 : 1 < k
    · rw [if_pos h1]
      have e : toString v ++ (" / 2" ++ ("^" ++ toString k)) = toString v ++ " / 2^" ++ toString k := by
        rw [String.append_assoc, ← String.append_assoc (s₁ := " / 2") (s₂ := "^")]; rfl
      rw [e]; exact Writes.pow v k
    · rw [if_neg h1]
      have h : k = 1 := by omega
      subst h
      have := Writes.half v
      simpa using this

/-- C38: the text of the list of solutions: the number one, then the points, each a list of intervals. -/
theorem C38_display (l : List (List Box)) :
    showPoints l = "[1,\n[" ++ ", ".intercalate (l.map fun bs =>
      "[" ++ ", ".intercalate (bs.map fun b => "[" ++ showBound b.vdo b.kdo ++ ", " ++ showBound b.vup b.kup ++ "]") ++ "]")
      ++ "]\n]" := by
  have hb : ∀ bs : List Box, showBoxes bs =
      ", ".intercalate (bs.map fun b => "[" ++ showBound b.vdo b.kdo ++ ", " ++ showBound b.vup b.kup ++ "]") := by
    intro bs
    induction bs with
    | nil => rfl
    | cons b bs ih =>
      cases bs with
      | nil => simp [showBoxes, showBox]
      | cons c bs => rw [showBoxes, ih]; simp [showBox, String.append_assoc]; simp
  have hl : ∀ l : List (List Box), showList l = ", ".intercalate (l.map fun bs =>
      "[" ++ ", ".intercalate (bs.map fun b => "[" ++ showBound b.vdo b.kdo ++ ", " ++ showBound b.vup b.kup ++ "]") ++ "]") := by
    intro l
    induction l with
    | nil => rfl
    | cons b l ih =>
      cases l with
      | nil => simp [showList, showPoint, hb]
      | cons c l => rw [showList, ih]; simp [showPoint, hb, String.append_assoc]; simp
  rw [showPoints, hl]

example : normBox ⟨12, -40, 3, 2, false⟩ = ⟨3, -10, 1, 0, false⟩ := by decide +kernel
example : showPoints [[⟨3, -10, 1, 0, false⟩, ⟨5, 6, 4, 4, false⟩]] = "[1,\n[[[3 / 2, -10], [5 / 2^4, 6 / 2^4]]]\n]" := by
  decide +kernel

/-! ### C54 -/

/-- The eliminating polynomial `3 * 2^140 x^2 - x`. -/
private def lostE : ℕ → ℤ := fun i => if i = 1 then -1 else if i = 2 then 3 * 2 ^ 140 else 0

private def lostP : Param := ⟨lostE, 2, denomOf lostE, 2, [⟨fun i => if i = 1 then 1 else 0, 2, 1⟩]⟩

private theorem quad_rp (N : ℤ) : rp (fun i => if i = 1 then -1 else if i = 2 then N else 0) 2 = C (N : ℝ) * X ^ 2 - X := by
  unfold rp toPoly
  simp only [Finset.sum_range_succ, Finset.sum_range_zero]
  simp
  ring

private theorem lost_eval (x : ℝ) : (rp lostE 2).eval x = ((3 * 2 ^ 140 : ℤ) : ℝ) * x ^ 2 - x := by
  unfold lostE; rw [quad_rp]; simp

private theorem lost_good : Good lostP where
  ns := by decide
  lead := by decide
  simple := by
    show Simple (rp lostE 2)
    unfold lostE
    generalize hN : (3 * 2 ^ 140 : ℤ) = N
    rw [quad_rp]
    intro x h h'
    simp at h h'
    have : x = 0 := by nlinarith
    subst this
    norm_num at h'
  dlen := rfl
  den := fun _ _ => rfl
  len := by simp [lostP]
  cf := by simp [lostP]

set_option maxRecDepth 100000 in
private theorem lost_run : isolateParam (fun _ => 0) 30 lostP 128 =
    .done [[⟨0, 0, 128, 128, true⟩, ⟨0, 0, 0, 0, true⟩], [⟨0, 0, 141, 141, true⟩, ⟨0, 0, 141, 141, true⟩]] := by
  decide +kernel

/-- C54: the last coordinates of the points do not always isolate the roots, even of a square-free polynomial.  For
`x(3 * 2^140 x - 1)` and the default precision the point of the root `1 / (3 * 2^140)` is lost: both points returned
have the exact last coordinate zero. -/
theorem C54_root_lost : ∃ (p : Param) (out : List (List Box)), Good p ∧ isolateParam (fun _ => 0) 30 p 128 = .done out ∧
    ∃ x : ℝ, (rp p.elim p.nsols).eval x = 0 ∧ ∀ bs ∈ out, x ∉ (lastCell bs).set := by
  refine ⟨lostP, _, lost_good, lost_run, 1 / (3 * 2 ^ 140), ?_, ?_⟩
  · show (rp lostE 2).eval _ = 0
    rw [lost_eval]; norm_num
  · intro bs hbs
    simp only [List.mem_cons, List.not_mem_nil, or_false] at hbs
    rcases hbs with rfl | rfl <;> simp [lastCell, Cell.set, Box.lo]

/-- The eliminating polynomial `4 y^3 - y^2 - y - 1` for `y = w x`. -/
private def cubE (w : ℤ) : ℕ → ℤ := fun i =>
  if i = 0 then -1 else if i = 1 then -w else if i = 2 then -w ^ 2 else if i = 3 then 4 * w ^ 3 else 0

private def cubP (w : ℤ) : Param := ⟨cubE w, 3, denomOf (cubE w), 3, [⟨fun i => if i = 0 then w else 0, 1, 1⟩]⟩

private theorem cubic_rp (a b c d : ℤ) :
    rp (fun i => if i = 0 then a else if i = 1 then b else if i = 2 then c else if i = 3 then d else 0) 3 =
      C (a : ℝ) + C (b : ℝ) * X + C (c : ℝ) * X ^ 2 + C (d : ℝ) * X ^ 3 := by
  unfold rp toPoly
  simp only [Finset.sum_range_succ, Finset.sum_range_zero]
  simp

private theorem sign_pos {w : ℤ} (hw : 0 < w) {x : ℝ} (h : (rp (cubE w) 3).eval x = 0) :
    0 < (rp (cubE w) 3).derivative.eval x := by
  have hw' : (0 : ℝ) < w := by exact_mod_cast hw
  have he : (rp (cubE w) 3).eval x = 4 * (w * x) ^ 3 - (w * x) ^ 2 - w * x - 1 := by
    unfold cubE; rw [cubic_rp]; simp; ring
  have hd : (rp (cubE w) 3).derivative.eval x = w * (12 * (w * x) ^ 2 - 2 * (w * x) - 1) := by
    unfold cubE; rw [cubic_rp]; simp [derivative_pow]; ring
  rw [he] at h
  rw [hd]
  generalize (w : ℝ) * x = y at h
  have hy : 0 < y := by nlinarith [sq_nonneg (y + 1), sq_nonneg y, sq_nonneg (2 * y + 1), sq_nonneg (y - 1)]
  have : 0 < y * (12 * y ^ 2 - 2 * y - 1) := by nlinarith [sq_nonneg y]
  have h2 : 0 < 12 * y ^ 2 - 2 * y - 1 := by
    by_contra hn
    nlinarith
  positivity

private theorem cub_good {w : ℤ} (hw : 0 < w) : Good (cubP w) where
  ns := by show 1 ≤ 3; omega
  lead := by show (4 * w ^ 3 : ℤ) ≠ 0; positivity
  simple := fun x h => (sign_pos hw h).ne'
  dlen := rfl
  den := fun _ _ => rfl
  len := by simp [cubP]
  cf := by simp [cubP]

private theorem cub_neg {w : ℤ} (hw : 0 < w) {x : ℝ} (h : (rp (cubE w) 3).eval x = 0) :
    coordVal (cubP w) ⟨fun i => if i = 0 then w else 0, 1, 1⟩ x < 0 := by
  have hw' : (0 : ℝ) < w := by exact_mod_cast hw
  unfold coordVal
  rw [lval_denom (cub_good hw)]
  have : lval (fun i => if i = 0 then w else 0) 1 x = w := by simp [lval]
  simp only
  rw [this]
  simp only [Int.cast_one, mul_one]
  exact div_neg_of_neg_of_pos (by linarith) (sign_pos hw h)

set_option maxRecDepth 100000 in
private theorem sign_run : isolateParam (fun _ => 0) 30 (cubP (2 ^ 160)) 128 =
    .done [[⟨9452287970026068429538183539771339207, 1, 126, 0, false⟩, ⟨0, 1, 158, 158, false⟩]] := by
  decide +kernel

/-- C54: the boxes do not always hold the points.  For `4 y^3 - y^2 - y - 1`, `y = 2^160 x`, and the default precision
the sign of the only other coordinate is wrong: the box lies on the right of zero, every point on the left. -/
theorem C54_wrong_sign : ∃ (p : Param) (out : List (List Box)), Good p ∧ isolateParam (fun _ => 0) 30 p 128 = .done out ∧
    ∃ bs ∈ out, ∀ x : ℝ, (rp p.elim p.nsols).eval x = 0 → ¬ Encloses bs (point p x) := by
  have hw : (0 : ℤ) < 2 ^ 160 := by positivity
  refine ⟨cubP (2 ^ 160), _, cub_good hw, sign_run, _, List.mem_cons_self, fun x hx he => ?_⟩
  have hneg := cub_neg hw hx
  unfold Encloses point at he
  have h1 : Box.has _ _ := (List.forall₂_cons.mp he).1
  have h2 := h1.1
  rw [Box.lo] at h2
  have : (0 : ℝ) < ((9452287970026068429538183539771339207 : ℤ) : ℝ) / 2 ^ 126 := by positivity
  exact absurd (this.trans_le h2) (not_lt.mpr hneg.le)

/-- C54: when different roots are at least `2^-n` apart for the precision `n` of the isolation (the requested one,
`128` and more for large coefficients), the computation ends, the last coordinates isolate all real roots of the
eliminating polynomial, in increasing order, and every box holds the point of its root provided that no intermediate
interval in the evaluation of the denominator by Horner's rule has points on both sides of zero. -/
theorem C54_points_partial (shl : ℕ → ℤ) {p : Param} (hp : Good p) (precision : ℕ)
    (hap : Apart (rp p.elim p.nsols) (isoPrec p precision)) :
    ∃ K out, (∀ fuel ≥ K, isolateParam shl fuel p precision = .done out) ∧
      Isolates (rp p.elim p.nsols) Set.univ (out.map lastCell) ∧
      ∀ bs ∈ out, bs.length = p.coords.length + 1 ∧ ∃ x, (rp p.elim p.nsols).eval x = 0 ∧ x ∈ (lastCell bs).set ∧
        ((∀ k ≥ isoPrec p precision, ∀ r : ℤ, (r : ℝ) / 2 ^ k ≤ x → x ≤ ((r : ℝ) + 1) / 2 ^ k → ∀ j < p.dlen - 1,
          ¬ Straddles (hornerIv p.denom (p.dlen - 1) k r (r + 1) j)) → Encloses bs (point p x)) := by
  obtain ⟨K, out, h1, h2, h3⟩ := isolateParam_spec shl hp precision hap
  refine ⟨K, out, h1, h2, fun bs hbs => ?_⟩
  obtain ⟨h4, x, h5, h6, h7⟩ := h3 bs hbs
  refine ⟨h4, x, h5, h6, fun hs => h7 fun k hk r hr1 hr2 j hj => Or.inl ?_⟩
  have hk' : (0 : ℝ) < 2 ^ k := by positivity
  have hs' := hs k hk r ((div_le_iff₀ hk').mpr (by linarith)) ((le_div_iff₀ hk').mpr (by linarith))
  rw [iv_eq_hornerIv (ends_succ r) _ _ _ j fun i hi => hs' i (by omega)]
  exact hs' j hj

private theorem roots_finite {p : Param} (hp : Good p) : ∃ S : Finset ℝ, ∀ x, (rp p.elim p.nsols).eval x = 0 → x ∈ S := by
  have hne : rp p.elim p.nsols ≠ 0 := by
    intro h0
    have := hp.simple 0 (by rw [h0]; simp)
    rw [h0] at this
    simp at this
  exact ⟨(rp p.elim p.nsols).roots.toFinset, fun x hx => by
    rw [Multiset.mem_toFinset, mem_roots hne]; exact hx⟩

private theorem finset_bound {α : Type*} (S : Finset α) (Q : α → ℕ → Prop) (h : ∀ a ∈ S, ∃ P, ∀ n ≥ P, Q a n) :
    ∃ P, ∀ n ≥ P, ∀ a ∈ S, Q a n := by
  classical
  induction S using Finset.induction_on with
  | empty => exact ⟨0, fun _ _ a ha => absurd ha (by simp)⟩
  | insert a S _ ih =>
    obtain ⟨P1, h1⟩ := h a (Finset.mem_insert_self a S)
    obtain ⟨P2, h2⟩ := ih fun b hb => h b (Finset.mem_insert_of_mem hb)
    refine ⟨max P1 P2, fun n hn b hb => ?_⟩
    rcases Finset.mem_insert.mp hb with rfl | hb
    · exact h1 n (le_trans (le_max_left _ _) hn)
    · exact h2 n (le_trans (le_max_right _ _) hn) b hb

private theorem apart_eventually {p : Param} (hp : Good p) : ∃ P, ∀ n ≥ P, Apart (rp p.elim p.nsols) n := by
  obtain ⟨S, hS⟩ := roots_finite hp
  obtain ⟨P, hP⟩ := finset_bound (S ×ˢ S) (fun a n => a.1 ≠ a.2 → 1 / (2 : ℝ) ^ n ≤ |a.1 - a.2|) (by
    rintro ⟨x, y⟩ _
    by_cases hxy : x = y
    · exact ⟨0, fun _ _ h => absurd hxy h⟩
    · have hpos : 0 < |x - y| := abs_pos.mpr (sub_ne_zero.mpr hxy)
      obtain ⟨P, hP⟩ := exists_pow_lt_of_lt_one hpos (show (1 / 2 : ℝ) < 1 by norm_num)
      refine ⟨P, fun n hn _ => ?_⟩
      rw [one_div, ← inv_pow, ← one_div]
      exact (pow_le_pow_of_le_one (by norm_num) (by norm_num) hn).trans hP.le)
  exact ⟨P, fun n hn x y hx hy hne => hP n hn (x, y) (Finset.mem_product.mpr ⟨hS x hx, hS y hy⟩) hne⟩

/-- C54: for every parametrization with a square-free eliminating polynomial there is a precision from which on the
computation ends, the last coordinates isolate all real roots, and every box holds the point of its root. -/
theorem C54_large_precision_partial (shl : ℕ → ℤ) {p : Param} (hp : Good p) : ∃ P, ∀ precision ≥ P,
    ∃ K out, (∀ fuel ≥ K, isolateParam shl fuel p precision = .done out) ∧
      Isolates (rp p.elim p.nsols) Set.univ (out.map lastCell) ∧
      ∀ bs ∈ out, ∃ x, (rp p.elim p.nsols).eval x = 0 ∧ x ∈ (lastCell bs).set ∧ Encloses bs (point p x) := by
  obtain ⟨S, hS⟩ := roots_finite hp
  obtain ⟨P1, h1⟩ := apart_eventually hp
  obtain ⟨P2, h2⟩ := finset_bound S (fun x n => ∀ r : ℤ, (r : ℝ) ≤ 2 ^ n * x → 2 ^ n * x ≤ r + 1 → Safe p x r n)
    (fun x _ => noStraddle_eventually p.denom (p.dlen - 1) x (p.dlen - 1))
  refine ⟨max P1 P2, fun precision hprec => ?_⟩
  have hle : precision ≤ isoPrec p precision := by unfold isoPrec; exact le_max_left _ _
  obtain ⟨K, out, h3, h4, h5⟩ := isolateParam_spec shl hp precision (h1 _ (by have := le_max_left P1 P2; omega))
  refine ⟨K, out, h3, h4, fun bs hbs => ?_⟩
  obtain ⟨_, x, h6, h7, h8⟩ := h5 bs hbs
  refine ⟨x, h6, h7, h8 fun k hk r hr1 hr2 => h2 k ?_ x (hS x h6) r hr1 hr2⟩
  have := le_max_right P1 P2
  omega

/-- C54: the hypotheses on the parametrization hold when the eliminating polynomial is square-free, the denominator is
its derivative, the other polynomials are shorter, and their denominators positive. -/
theorem C54_good {p : Param} (hns : 1 ≤ p.nsols) (hlead : p.elim p.nsols ≠ 0)
    (hsq : Squarefree ((toPoly p.elim p.nsols).map (Int.castRingHom ℚ))) (hdl : p.dlen = p.nsols)
    (hden : ∀ i < p.nsols, p.denom i = p.elim (i + 1) * (i + 1)) (hlen : ∀ q ∈ p.coords, q.len ≤ p.nsols)
    (hcf : ∀ q ∈ p.coords, 0 < q.cf) : Good p :=
  ⟨hns, hlead, simple_of_squarefree hsq, hdl, hden, hlen, hcf⟩

/-- `x^2 - 2` with the coordinate `1 / x`. -/
private def okE : ℕ → ℤ := fun i => if i = 0 then -2 else if i = 2 then 1 else 0

private def okP : Param := ⟨okE, 2, denomOf okE, 2, [⟨fun i => if i = 0 then -2 else 0, 1, 1⟩]⟩

private theorem ok_rp : rp okE 2 = X ^ 2 - C 2 := by
  unfold rp toPoly okE
  simp only [Finset.sum_range_succ, Finset.sum_range_zero]
  simp
  rw [show (C 2 : ℝ[X]) = 2 from rfl]
  ring

/-- The hypotheses are met. -/
private theorem ok_good : Good okP where
  ns := by decide
  lead := by decide
  simple := by
    show Simple (rp okE 2)
    rw [ok_rp]
    intro x h h'
    simp at h h'
    subst h'
    norm_num at h
  dlen := rfl
  den := fun _ _ => rfl
  len := by simp [okP]
  cf := by simp [okP]

example (n : ℕ) : Apart (rp okP.elim okP.nsols) n := by
  show Apart (rp okE 2) n
  rw [ok_rp]
  intro x y hx hy hne
  simp at hx hy
  have h1 : x + y = 0 := by
    have : (x - y) * (x + y) = 0 := by nlinarith
    exact (mul_eq_zero.mp this).resolve_left (sub_ne_zero.mpr hne)
  have h2 : 1 ≤ |x - y| := by
    by_contra hlt
    push Not at hlt
    have : (x - y) ^ 2 < 1 := by rw [← sq_abs]; nlinarith [abs_nonneg (x - y)]
    nlinarith
  exact (div_le_one_of_le₀ (one_le_pow₀ (by norm_num)) (by positivity)).trans h2

end Verif.Props
