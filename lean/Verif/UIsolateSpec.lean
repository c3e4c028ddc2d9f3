import Verif.UIsolate

/-!
Correctness of the bisection.
-/
namespace Verif.UIsolate
open Verif.UPoly Verif.UEval Verif.UScale Verif.UTaylor Verif.USign Verif.UDescartes Verif.Isolate Polynomial

/-! ### composition of isolations -/

theorem isolates_congr {D E : ℝ[X]} {I : Set ℝ} {out : List Cell} (h : Isolates D I out)
    (hDE : ∀ x ∈ I, (D.eval x = 0 ↔ E.eval x = 0)) : Isolates E I out := by
  refine ⟨fun r hr => ?_, h.sub, fun x hx h0 => h.cover x hx ((hDE x hx).mpr h0), h.order⟩
  obtain ⟨x, ⟨hx1, hx2⟩, hu⟩ := h.unique r hr
  exact ⟨x, ⟨hx1, (hDE x (h.sub r hr hx1)).mp hx2⟩,
    fun y hy => hu y ⟨hy.1, (hDE y (h.sub r hr hy.1)).mpr hy.2⟩⟩

theorem isolates_nil {D : ℝ[X]} {I : Set ℝ} (h : ∀ x ∈ I, D.eval x ≠ 0) : Isolates D I [] :=
  ⟨by simp, by simp, fun x hx h0 => absurd h0 (h x hx), List.Pairwise.nil⟩

theorem isolates_append {D : ℝ[X]} {I J : Set ℝ} {o1 o2 : List Cell} (h1 : Isolates D I o1) (h2 : Isolates D J o2)
    (hlt : ∀ x ∈ I, ∀ y ∈ J, x < y) : Isolates D (I ∪ J) (o1 ++ o2) where
  unique r hr := (List.mem_append.mp hr).elim (h1.unique r) (h2.unique r)
  sub r hr := (List.mem_append.mp hr).elim (fun h => (h1.sub r h).trans Set.subset_union_left)
    (fun h => (h2.sub r h).trans Set.subset_union_right)
  cover x hx h0 := by
    rcases hx with hx | hx
    · obtain ⟨r, hr, hx⟩ := h1.cover x hx h0
      exact ⟨r, List.mem_append_left _ hr, hx⟩
    · obtain ⟨r, hr, hx⟩ := h2.cover x hx h0
      exact ⟨r, List.mem_append_right _ hr, hx⟩
  order := by
    rw [List.pairwise_append]
    exact ⟨h1.order, h2.order, fun r hr s hs x hx y hy => hlt x (h1.sub r hr hx) y (h2.sub s hs hy)⟩

theorem isolates_one {D : ℝ[X]} {a b x : ℝ} (hx1 : a < x) (hx2 : x < b) (h0 : D.eval x = 0)
    (hu : ∀ y, a < y → y < b → D.eval y = 0 → y = x) : Isolates D (Set.Ioo a b) [⟨a, b, false⟩] := by
  refine ⟨fun r hr => ?_, fun r hr => ?_, fun y hy _ => ⟨_, List.mem_singleton_self _, ?_⟩, List.pairwise_singleton _ _⟩
  · rw [List.mem_singleton.mp hr]
    refine ⟨x, ⟨by simpa [Cell.set] using ⟨hx1, hx2⟩, h0⟩, fun y hy => ?_⟩
    have hy1 : a < y ∧ y < b := by simpa [Cell.set] using hy.1
    exact hu y hy1.1 hy1.2 hy.2
  · rw [List.mem_singleton.mp hr]; simp [Cell.set]
  · simpa [Cell.set] using hy

theorem isolates_point {D : ℝ[X]} {m : ℝ} {h : ℝ} (h0 : D.eval m = 0) : Isolates D {m} [⟨m, h, true⟩] := by
  refine ⟨fun r hr => ?_, fun r hr => ?_, fun y hy _ => ⟨_, List.mem_singleton_self _, ?_⟩, List.pairwise_singleton _ _⟩
  · rw [List.mem_singleton.mp hr]
    exact ⟨m, ⟨by simp [Cell.set], h0⟩, fun y hy => by simpa [Cell.set] using hy.1⟩
  · rw [List.mem_singleton.mp hr]; simp [Cell.set]
  · simpa [Cell.set] using hy

/-- An interval split at `m`. -/
theorem isolates_split {D : ℝ[X]} {a m b : ℝ} {o1 h o2 : List Cell} (ham : a < m) (hmb : m < b)
    (h1 : Isolates D (Set.Ioo a m) o1) (hh : Isolates D {m} h) (h2 : Isolates D (Set.Ioo m b) o2) :
    Isolates D (Set.Ioo a b) (o1 ++ h ++ o2) := by
  have := isolates_append (isolates_append h1 hh ?_) h2 ?_
  · convert this using 1
    ext x
    simp only [Set.mem_Ioo, Set.mem_union, Set.mem_singleton_iff]
    constructor
    · rintro ⟨hx1, hx2⟩
      rcases lt_trichotomy x m with h | h | h
      · exact Or.inl (Or.inl ⟨hx1, h⟩)
      · exact Or.inl (Or.inr h)
      · exact Or.inr ⟨h, hx2⟩
    · rintro ((⟨h1, h2⟩ | rfl) | ⟨h1, h2⟩)
      · exact ⟨h1, h2.trans hmb⟩
      · exact ⟨ham, hmb⟩
      · exact ⟨ham.trans h1, h2⟩
  · rintro x hx y rfl; exact hx.2
  · rintro x (hx | rfl) y hy
    · exact hx.2.trans hy.1
    · exact hy.1

/-! ### the state and the polynomial it stands for -/

/-- The state fits: leading coefficient, table of powers. -/
structure Valid (s : St) : Prop where
  lead : s.up s.deg ≠ 0
  cur : s.cur = s.deg
  pwx : degPower s.deg = some s.pwx
  npwr : Nat.log 2 (s.deg / s.pwx) ≤ s.npwr

/-- `up(x) = u * D(α x + β)` with `u ≠ 0`. -/
def Rep (s : St) (D : ℝ[X]) (α β : ℝ) : Prop :=
  ∃ u : ℝ, u ≠ 0 ∧ rp s.up s.deg = C u * D.comp (C α * X + C β)

theorem Rep.eval {s : St} {D : ℝ[X]} {α β : ℝ} (h : Rep s D α β) :
    ∃ u : ℝ, u ≠ 0 ∧ ∀ x, (rp s.up s.deg).eval x = u * D.eval (α * x + β) := by
  obtain ⟨u, hu, h⟩ := h
  refine ⟨u, hu, fun x => ?_⟩
  rw [h]; simp

theorem Rep.of_eval {s : St} {D : ℝ[X]} {α β u : ℝ} (hu : u ≠ 0)
    (h : ∀ x, (rp s.up s.deg).eval x = u * D.eval (α * x + β)) : Rep s D α β :=
  ⟨u, hu, Polynomial.funext fun x => by rw [h x]; simp⟩

theorem Rep.zero_iff {s : St} {D : ℝ[X]} {α β : ℝ} (h : Rep s D α β) (x : ℝ) :
    (rp s.up s.deg).eval x = 0 ↔ D.eval (α * x + β) = 0 := by
  obtain ⟨u, hu, h⟩ := h.eval
  rw [h x, mul_eq_zero, or_iff_right hu]

theorem Valid.deg_pos {s : St} (h : Valid s) : 1 ≤ s.deg := by
  rcases Nat.eq_zero_or_pos s.deg with h0 | h0
  · have := h.pwx
    rw [h0, degPower] at this
    cases this
  · exact h0

theorem Valid.sz {s : St} (h : Valid s) : 2 ≤ s.pwx ∨ s.deg ≤ s.pwx := by
  obtain ⟨p, h1, h2, h3, h4, h5⟩ := degPower_spec s.deg h.deg_pos
  rw [h.pwx] at h1
  cases h1
  rcases Nat.lt_or_ge 256 s.deg with hd | hd
  · left; have := h5 hd; omega
  · right; rw [h4 hd]

theorem Valid.tab {s : St} (h : Valid s) (i : ℕ) (hi : i < Nat.log 2 (s.deg / s.pwx)) :
    toPoly (tabOf s i) (s.pwx * 2 ^ i) = (X + 1) ^ (s.pwx * 2 ^ i) := by
  unfold tabOf
  rw [if_pos (hi.trans_le h.npwr), shiftTab_spec]

theorem updPwx_spec {s s' : St} (hlead : s.up s.deg ≠ 0) (hcur : s.cur = s.deg)
    (hold : Nat.log 2 (s.deg / s.pwx) ≤ s.npwr)
    (h : updPwx s = some s') : Valid s' ∧ s'.up = s.up ∧ s'.deg = s.deg := by
  unfold updPwx at h
  obtain ⟨p, hp, h⟩ := Option.map_eq_some_iff.mp h
  split at h
  · subst h
    refine ⟨⟨hlead, hcur, ?_, ?_⟩, rfl, rfl⟩
    · simp only; rw [← hcur]; exact hp
    · simp only
      split
      · rename_i hle
        rw [← hcur]
        have : s.cur / p ≤ 1 := by
          rcases Nat.eq_zero_or_pos p with h0 | h0
          · subst h0; simp
          · exact Nat.div_le_of_le_mul (by omega)
        have h2 := Nat.log_mono_right (b := 2) this
        simpa using h2
      · rw [hcur]
  · rename_i hpe
    subst h
    push Not at hpe
    refine ⟨⟨hlead, hcur, ?_, hold⟩, rfl, rfl⟩
    rw [← hcur, hp, hpe]

/-- Result of the treatment of the midpoint `m`. -/
theorem manageHalf_spec {s s1 : St} {half : Bool} {shalf : ℤ} {D : ℝ[X]} {α β : ℝ} (hs : Valid s)
    (hrep : Rep s D α β) (hα : α ≠ 0) (h : manageHalf s = .ok s1 half shalf) :
    ∃ D1, Valid s1 ∧ Rep s1 D1 α β ∧ D1.eval (α * (1 / 2) + β) ≠ 0 ∧
      D = (if half = true then X - C (α * (1 / 2) + β) else 1) * D1 ∧
      shalf = (evalOneHalf s1.up s1.deg).sign ∧ shalf ≠ 0 := by
  have hzero : ∀ (f : ℕ → ℤ) (d : ℕ), evalOneHalf f d = 0 ↔ (rp f d).eval (1 / 2) = 0 := by
    intro f d
    rw [rp_eval]
    have := evalOneHalf_real (K := ℝ) f d
    constructor
    · intro h0
      rw [h0] at this
      have h2 : (2 : ℝ) ^ d ≠ 0 := by positivity
      exact (mul_eq_zero.mp (by simpa using this.symm)).resolve_left h2
    · intro h0
      rw [h0, mul_zero] at this
      exact_mod_cast this
  unfold manageHalf at h
  simp only at h
  split at h
  · rename_i h0
    have h0 : evalOneHalf s.up s.deg = 0 := Int.sign_eq_zero_iff_zero.mp h0
    have hroot := (hzero _ _).mp h0
    have hdeg := hs.deg_pos
    obtain ⟨q, e, hq1, hq2⟩ := numerQuotient_spec (K := ℝ) (up := s.up) (deg := s.deg) (c := 1) (k := 1)
      (by omega) (by rw [← rp_eval]; simpa using hroot)
    rw [hq1] at h
    simp only at h
    have hqne := (numerQuotient_ne hs.lead hq1).2
    split at h
    · cases h
    · rename_i hsh
      split at h
      · cases h
      · rename_i s' hupd
        cases h
        obtain ⟨hv, e1, e2⟩ := updPwx_spec (s := { s with up := q, deg := s.deg - 1, cur := s.deg - 1 }) hqne rfl
          ((Nat.log_mono_right (Nat.div_le_div_right (by simp))).trans hs.npwr) hupd
        simp only at e1 e2
        set m := α * (1 / 2) + β with hm
        have hDm : D.eval m = 0 := (hrep.zero_iff (1 / 2)).mp hroot
        obtain ⟨D1, hD1⟩ := dvd_iff_isRoot.mpr (show D.IsRoot m from hDm)
        obtain ⟨u, hu, hue⟩ := hrep.eval
        have hid : C (2 ^ e : ℝ) * ((X - C (1 / 2)) * rp q (s.deg - 1))
            = C (2 ^ ((s.deg - 1) * 1) * u * α) * ((X - C (1 / 2)) * D1.comp (C α * X + C β)) := by
          refine Polynomial.funext fun x => ?_
          have h1 := hq2 x
          rw [← rp_eval, ← rp_eval, hue x, hD1] at h1
          simp only [eval_mul, eval_sub, eval_X, eval_C, eval_comp, eval_add, Int.cast_one, pow_one] at h1 ⊢
          rw [← h1, hm]
          ring
        have hid2 : C (2 ^ e : ℝ) * rp q (s.deg - 1)
            = C (2 ^ ((s.deg - 1) * 1) * u * α) * D1.comp (C α * X + C β) := by
          refine mul_left_cancel₀ (X_sub_C_ne_zero (1 / 2 : ℝ)) ?_
          linear_combination hid
        have hrep1 : Rep s1 D1 α β := by
          refine Rep.of_eval (u := (2 ^ ((s.deg - 1) * 1) * u * α) / 2 ^ e) ?_ fun x => ?_
          · exact div_ne_zero (mul_ne_zero (mul_ne_zero (by positivity) hu) hα) (by positivity)
          · have := congrArg (eval x) hid2
            simp only [eval_mul, eval_C, eval_comp, eval_add, eval_X] at this
            rw [e1, e2, div_mul_eq_mul_div, eq_div_iff (by positivity), ← this]
            ring
        refine ⟨D1, hv, hrep1, ?_, ?_, ?_, hsh⟩
        · intro h1
          apply hsh
          have := (hrep1.zero_iff (1 / 2)).mpr h1
          rw [e1, e2] at this
          rw [(hzero _ _).mpr this]; rfl
        · rw [if_pos rfl]; exact hD1
        · rw [e1, e2]
  · rename_i h0
    cases h
    refine ⟨D, hs, hrep, ?_, by simp, rfl, h0⟩
    intro h1
    apply h0
    rw [(hzero _ _).mpr ((hrep.zero_iff (1 / 2)).mpr h1)]; rfl

/-! ### the node -/

/-- The cell a record stands for. -/
noncomputable def rawCell (r : Raw) : Cell := ⟨(r.c : ℝ) / 2 ^ r.k, ((r.c : ℝ) + 1) / 2 ^ r.k, r.exact⟩

/-- The product of the linear factors of the exact roots. -/
noncomputable def exProd (out : List Raw) : ℝ[X] :=
  (out.map fun r => if r.exact = true then X - C ((r.c : ℝ) / 2 ^ r.k) else 1).prod

theorem exProd_append (o1 o2 : List Raw) : exProd (o1 ++ o2) = exProd o1 * exProd o2 := by
  unfold exProd; rw [List.map_append, List.prod_append]

theorem exProd_eval_ne {out : List Raw} {x : ℝ} (h : ∀ r ∈ out, r.exact = true → x ≠ (r.c : ℝ) / 2 ^ r.k) :
    (exProd out).eval x ≠ 0 := by
  induction out with
  | nil => simp [exProd]
  | cons r out ih =>
    have ih := ih fun r' hr' => h r' (List.mem_cons_of_mem _ hr')
    unfold exProd at ih ⊢
    rw [List.map_cons, List.prod_cons, eval_mul]
    refine mul_ne_zero ?_ ih
    split
    · rename_i he
      simp only [eval_sub, eval_X, eval_C]
      exact sub_ne_zero.mpr (h r List.mem_cons_self he)
    · simp

/-- What is known after the treatment of the interval between `a` and `b`. -/
structure Post (D : ℝ[X]) (a b : ℝ) (k : ℕ) (s : St) (out : List Raw) (ret : Option ℕ) (D' : ℝ[X]) : Prop where
  fact : D = D' * exProd out
  iso : Isolates D (Set.Ioo a b) (out.map rawCell)
  ends : ∀ r ∈ out, r.exact = false → D'.eval ((r.c : ℝ) / 2 ^ r.k) ≠ 0 ∧ D'.eval (((r.c : ℝ) + 1) / 2 ^ r.k) ≠ 0
  none : ret = none → ∀ x, b ≤ x → D.eval x ≠ 0
  some : ∀ k', ret = some k' → k ≤ k' ∧ Valid s ∧ Rep s D' (1 / 2 ^ k') (b - 1 / 2 ^ k')

theorem exact_mem {D : ℝ[X]} {I : Set ℝ} {out : List Raw} (h : Isolates D I (out.map rawCell)) (r : Raw)
    (hr : r ∈ out) (he : r.exact = true) : (r.c : ℝ) / 2 ^ r.k ∈ I :=
  h.sub (rawCell r) (List.mem_map_of_mem hr) (by simp [rawCell, Cell.set, he])

theorem post_split {D D1 DL DR : ℝ[X]} {a b : ℝ} {c k : ℕ} {half : Bool} {o1 o2 : List Raw}
    (ha : a = (c : ℝ) / 2 ^ k) (hb : b = ((c : ℝ) + 1) / 2 ^ k)
    (hD : D = (if half = true then X - C (((2 * c + 1 : ℕ) : ℝ) / 2 ^ (k + 1)) else 1) * D1)
    (hm : D1.eval (((2 * c + 1 : ℕ) : ℝ) / 2 ^ (k + 1)) ≠ 0)
    (f1 : D1 = DL * exProd o1)
    (i1 : Isolates D1 (Set.Ioo a (((2 * c + 1 : ℕ) : ℝ) / 2 ^ (k + 1))) (o1.map rawCell))
    (e1 : ∀ r ∈ o1, r.exact = false → DL.eval ((r.c : ℝ) / 2 ^ r.k) ≠ 0 ∧ DL.eval (((r.c : ℝ) + 1) / 2 ^ r.k) ≠ 0)
    (f2 : DL = DR * exProd o2)
    (i2 : Isolates DL (Set.Ioo (((2 * c + 1 : ℕ) : ℝ) / 2 ^ (k + 1)) b) (o2.map rawCell))
    (e2 : ∀ r ∈ o2, r.exact = false → DR.eval ((r.c : ℝ) / 2 ^ r.k) ≠ 0 ∧ DR.eval (((r.c : ℝ) + 1) / 2 ^ r.k) ≠ 0) :
    let out := o1 ++ halfRec c k half ++ o2
    D = DR * exProd out ∧ Isolates D (Set.Ioo a b) (out.map rawCell) ∧
      ∀ r ∈ out, r.exact = false → DR.eval ((r.c : ℝ) / 2 ^ r.k) ≠ 0 ∧ DR.eval (((r.c : ℝ) + 1) / 2 ^ r.k) ≠ 0 := by
  set m := ((2 * c + 1 : ℕ) : ℝ) / 2 ^ (k + 1) with hmdef
  have hmab : a < m ∧ m < b := by
    have hp : (0 : ℝ) < 2 ^ k := by positivity
    rw [ha, hb, hmdef, pow_succ]
    push_cast
    constructor
    · rw [div_lt_div_iff₀ hp (by positivity)]; nlinarith
    · rw [div_lt_div_iff₀ (by positivity) hp]; nlinarith
  have hhalf : exProd (halfRec c k half) = if half = true then X - C m else 1 := by
    unfold halfRec exProd
    split <;> simp [hmdef]
  intro out
  refine ⟨?_, ?_, ?_⟩
  · simp only [out]
    rw [exProd_append, exProd_append, hhalf, hD, f1, f2]; ring
  · simp only [out]
    rw [List.map_append, List.map_append]
    have hDx : ∀ x, x ≠ m → (D1.eval x = 0 ↔ D.eval x = 0) := by
      intro x hx
      rw [hD, eval_mul, mul_eq_zero]
      refine ⟨Or.inr, fun h => h.resolve_left ?_⟩
      split
      · simp only [eval_sub, eval_X, eval_C]; exact sub_ne_zero.mpr hx
      · simp
    refine isolates_split hmab.1 hmab.2 (isolates_congr i1 fun x hx => hDx x hx.2.ne) ?_
      (isolates_congr i2 fun x hx => ?_)
    · unfold halfRec
      split
      · rename_i hh
        rw [List.map_singleton]
        refine isolates_point ?_
        rw [hD, if_pos hh]; simp [hmdef]
      · rename_i hh
        refine isolates_nil ?_
        rintro x rfl
        rw [hD, if_neg hh, one_mul]; exact hm
    · rw [← hDx x hx.1.ne', f1, eval_mul, mul_eq_zero]
      refine ⟨Or.inl, fun h => h.resolve_right ?_⟩
      refine exProd_eval_ne fun r hr he => ?_
      have := (exact_mem i1 r hr he).2
      exact (this.trans hx.1).ne'
  · intro r hr he
    simp only [out, List.mem_append] at hr
    rcases hr with (hr | hr) | hr
    · have := e1 r hr he
      rw [f2, eval_mul, eval_mul] at this
      exact ⟨left_ne_zero_of_mul this.1, left_ne_zero_of_mul this.2⟩
    · unfold halfRec at hr
      split at hr
      · rw [List.mem_singleton.mp hr] at he; cases he
      · cases hr
    · exact e2 r hr he

theorem sign_mul_neg_real {f : ℕ → ℤ} {d e : ℕ} {x y : ℝ} {v w : ℤ} {p q : ℝ} (hp : 0 < p) (hq : 0 < q)
    (hv : (v : ℝ) = p * (rp f d).eval x) (hw : (w : ℝ) = q * (rp f e).eval y) (h : v.sign * w.sign < 0) :
    (rp f d).eval x * (rp f e).eval y < 0 := by
  have h1 : v * w < 0 := by
    rw [← Int.sign_mul] at h
    exact Int.sign_neg_iff.mp h
  have h2 : (v : ℝ) * (w : ℝ) < 0 := by exact_mod_cast h1
  rw [hv, hw] at h2
  by_contra hc
  push Not at hc
  have : 0 ≤ p * q * ((rp f d).eval x * (rp f e).eval y) := by positivity
  nlinarith

theorem rp_eval_zero (f : ℕ → ℤ) (d : ℕ) : ((f 0 : ℤ) : ℝ) = 1 * (rp f d).eval 0 := by
  rw [one_mul, rp_eval, aeval_toPoly, Finset.sum_range_succ']
  simp

theorem rp_eval_one (f : ℕ → ℤ) (d : ℕ) : ((evalOne f d : ℤ) : ℝ) = 1 * (rp f d).eval 1 := by
  rw [one_mul, rp_eval, evalOne_real]

theorem rp_eval_half (f : ℕ → ℤ) (d : ℕ) : ((evalOneHalf f d : ℤ) : ℝ) = 2 ^ d * (rp f d).eval (1 / 2) := by
  rw [rp_eval, evalOneHalf_real]

/-- The facts about a node after the treatment of its midpoint. -/
structure Node (s : St) (D : ℝ[X]) (a m b : ℝ) (v : ℕ) : Prop where
  am : a < m
  mb : m < b
  zero : s.up 0 ≠ 0
  one : evalOne s.up s.deg ≠ 0
  card : ∀ S : Finset ℝ, (∀ y ∈ S, a < y ∧ y < b ∧ D.eval y = 0) → S.card ≤ v
  even : Even v ↔ (evalOne s.up s.deg).sign = (s.up 0).sign
  sleft : (s.up 0).sign * (evalOneHalf s.up s.deg).sign < 0 → ∃ y, a < y ∧ y < m ∧ D.eval y = 0
  sright : (evalOneHalf s.up s.deg).sign * (evalOne s.up s.deg).sign < 0 → ∃ y, m < y ∧ y < b ∧ D.eval y = 0
  sall : (s.up 0).sign * (evalOne s.up s.deg).sign < 0 → ∃ y, a < y ∧ y < b ∧ D.eval y = 0
  pos : variationsIsZero s.up s.deg = some 0 → ∀ y, a < y → D.eval y ≠ 0

theorem node_of {s : St} {D : ℝ[X]} {α β : ℝ} (hs : Valid s) (hrep : Rep s D α β) (hα : 0 < α)
    (ha : D.eval β ≠ 0) (hb : D.eval (α + β) ≠ 0) :
    Node s D β (α * (1 / 2) + β) (α + β) (varShift (reversed s.up s.deg) s.deg) := by
  obtain ⟨u, hu, hue⟩ := hrep.eval
  have h0 : s.up 0 ≠ 0 := by
    intro h
    have := rp_eval_zero s.up s.deg
    rw [h, hue 0] at this
    simp only [Int.cast_zero, mul_zero, zero_add, one_mul] at this
    exact mul_ne_zero hu ha this.symm
  have h1 : evalOne s.up s.deg ≠ 0 := by
    intro h
    have := rp_eval_one s.up s.deg
    rw [h, hue 1] at this
    simp only [Int.cast_zero, mul_one, one_mul] at this
    exact mul_ne_zero hu hb this.symm
  have htrans : ∀ y, (rp s.up s.deg).eval ((y - β) / α) = 0 ↔ D.eval y = 0 := by
    intro y
    rw [hrep.zero_iff, show α * ((y - β) / α) + β = y by field_simp; ring]
  have hsgn : ∀ x y, (rp s.up s.deg).eval x * (rp s.up s.deg).eval y < 0 →
      D.eval (α * x + β) * D.eval (α * y + β) < 0 := by
    intro x y h
    rw [hue x, hue y] at h
    by_contra hc
    push Not at hc
    have h2 : 0 < u * u := mul_self_pos.mpr hu
    nlinarith
  have e0 : α * 0 + β = β := by ring
  have e1 : α * 1 + β = α + β := by ring
  refine ⟨by linarith, by linarith, h0, h1, fun S hS => ?_, varShift_parity hs.deg_pos h0 h1, fun h => ?_,
    fun h => ?_, fun h => ?_, fun h y hy h2 => ?_⟩
  · have hinj : Set.InjOn (fun y : ℝ => (y - β) / α) (S : Set ℝ) := by
      intro x _ y _ hxy
      simp only at hxy
      field_simp at hxy
      linarith
    rw [← Finset.card_image_of_injOn hinj]
    refine card_unit_roots_le h0 _ fun x hx => ?_
    obtain ⟨y, hy, rfl⟩ := Finset.mem_image.mp hx
    obtain ⟨g1, g2, g3⟩ := hS y hy
    refine ⟨div_pos (by linarith) hα, ?_, (htrans y).mpr g3⟩
    rw [div_lt_one hα]; linarith
  · have := hsgn _ _ (sign_mul_neg_real one_pos (by positivity) (rp_eval_zero s.up s.deg) (rp_eval_half s.up s.deg) h)
    rw [e0] at this
    exact exists_root_between D (by linarith) this
  · have := hsgn _ _ (sign_mul_neg_real (by positivity) one_pos (rp_eval_half s.up s.deg) (rp_eval_one s.up s.deg) h)
    rw [e1] at this
    exact exists_root_between D (by linarith) this
  · have := hsgn _ _ (sign_mul_neg_real one_pos one_pos (rp_eval_zero s.up s.deg) (rp_eval_one s.up s.deg) h)
    rw [e0, e1] at this
    exact exists_root_between D (by linarith) this
  · have hd := hs.deg_pos
    unfold variationsIsZero at h
    rw [if_neg (by omega)] at h
    have h := Option.some.inj h
    have hv := varLoop_poly (f := s.up) (deg := s.deg) (cap := 1) hs.lead (by omega) one_pos
    simp only at hv
    rw [h] at hv
    have hv : signVariations (rp s.up s.deg) = 0 := by
      rcases hv with hv | hv
      · exact hv.symm
      · omega
    have := card_pos_roots_le (rp_ne_zero hs.lead) {(y - β) / α} fun t ht => by
      rw [Finset.mem_singleton] at ht
      rw [ht]
      exact ⟨div_pos (by linarith) hα, (htrans y).mpr h2⟩
    rw [hv, Finset.card_singleton] at this
    omega

theorem exProd_nil : exProd [] = 1 := by simp [exProd]

theorem exProd_open (o : List Raw) (h : ∀ r ∈ o, r.exact = false) : exProd o = 1 := by
  unfold exProd
  apply List.prod_eq_one
  intro p hp
  obtain ⟨r, hr, rfl⟩ := List.mem_map.mp hp
  rw [h r hr]; rfl

/-- Correctness of `bisection_rec`, for runs that end. -/
theorem bisect_spec (fuel : ℕ) : ∀ (s : St) (c k : ℕ) (D : ℝ[X]) (s' : St) (out : List Raw) (ret : Option ℕ),
    Valid s → Rep s D (1 / 2 ^ k) ((c : ℝ) / 2 ^ k) → D.eval ((c : ℝ) / 2 ^ k) ≠ 0 →
    D.eval (((c : ℝ) + 1) / 2 ^ k) ≠ 0 → bisect fuel s c k = .done s' out ret →
    ∃ D', Post D ((c : ℝ) / 2 ^ k) (((c : ℝ) + 1) / 2 ^ k) k s' out ret D' := by
  induction fuel with
  | zero => intro s c k D s' out ret _ _ _ _ h; simp only [bisect] at h; cases h
  | succ fuel ih =>
    intro s c k D s' out ret hs hrep ha hb h
    have hp : (0 : ℝ) < 2 ^ k := by positivity
    set α : ℝ := 1 / 2 ^ k with hα
    have hαpos : 0 < α := by positivity
    set β : ℝ := (c : ℝ) / 2 ^ k with hβ
    have hbe : ((c : ℝ) + 1) / 2 ^ k = α + β := by rw [hα, hβ]; ring
    have hme : α * (1 / 2) + β = ((2 * c + 1 : ℕ) : ℝ) / 2 ^ (k + 1) := by
      rw [hα, hβ, pow_succ]; push_cast; field_simp; ring
    have hae : β = ((2 * c : ℕ) : ℝ) / 2 ^ (k + 1) := by
      rw [hβ, pow_succ]; push_cast; field_simp
    rw [hbe] at hb
    have hup0 := (node_of hs hrep hαpos ha hb).zero
    simp only [bisect] at h
    rw [show zeroRoot s c k = .done s [] none by unfold zeroRoot; rw [if_neg hup0]] at h
    simp only [List.nil_append] at h
    cases hmh : manageHalf s with
    | exit => rw [hmh] at h; cases h
    | hang => rw [hmh] at h; cases h
    | ok s1 half shalf =>
    rw [hmh] at h
    simp only at h
    obtain ⟨D1, hs1, hrep1, hm1, hD, hsh, hsh0⟩ := manageHalf_spec hs hrep hαpos.ne' hmh
    have hD1 : ∀ x, D.eval x ≠ 0 → D1.eval x ≠ 0 := by
      intro x hx h0
      apply hx
      rw [hD, eval_mul, h0, mul_zero]
    have hnode := node_of hs1 hrep1 hαpos (hD1 _ ha) (hD1 _ hb)
    rw [hme] at hm1 hD hnode
    set m := ((2 * c + 1 : ℕ) : ℝ) / 2 ^ (k + 1) with hm
    have hbm : ((2 * c + 1 : ℕ) + 1 : ℝ) / 2 ^ (k + 1) = α + β := by
      rw [hα, hβ, pow_succ]; push_cast; field_simp; ring
    have hma : (((2 * c : ℕ) : ℝ) + 1) / 2 ^ (k + 1) = m := by rw [hm]; push_cast; rfl
    have hends_c : D1.eval ((2 * c : ℕ) / 2 ^ (k + 1) : ℝ) ≠ 0 ∧ D1.eval ((((2 * c : ℕ) : ℝ) + 1) / 2 ^ (k + 1)) ≠ 0 := by
      rw [← hae, hma]; exact ⟨hD1 _ ha, hm1⟩
    have hends_d : D1.eval ((2 * c + 1 : ℕ) / 2 ^ (k + 1) : ℝ) ≠ 0 ∧
        D1.eval (((2 * c + 1 : ℕ) + 1 : ℝ) / 2 ^ (k + 1)) ≠ 0 := by
      rw [hbm]; exact ⟨hm1, hD1 _ hb⟩
    -- records without exact ones on the two halves
    have hsplit : ∀ o1 o2 : List Raw, (∀ r ∈ o1, r = ⟨2 * c, k + 1, false⟩) →
        (∀ r ∈ o2, r = ⟨2 * c + 1, k + 1, false⟩) →
        Isolates D1 (Set.Ioo β m) (o1.map rawCell) → Isolates D1 (Set.Ioo m (α + β)) (o2.map rawCell) →
        let o := o1 ++ halfRec c k half ++ o2
        D = D1 * exProd o ∧ Isolates D (Set.Ioo β (α + β)) (o.map rawCell) ∧
          ∀ r ∈ o, r.exact = false →
            D1.eval ((r.c : ℝ) / 2 ^ r.k) ≠ 0 ∧ D1.eval (((r.c : ℝ) + 1) / 2 ^ r.k) ≠ 0 := by
      intro o1 o2 h1 h2 i1 i2
      have x1 : exProd o1 = 1 := exProd_open o1 fun r hr => by rw [h1 r hr]
      have x2 : exProd o2 = 1 := exProd_open o2 fun r hr => by rw [h2 r hr]
      exact post_split (DL := D1) (DR := D1) hβ hbe.symm hD hm1 (by rw [x1, mul_one]) i1
        (fun r hr _ => by rw [h1 r hr]; exact hends_c) (by rw [x2, mul_one]) i2
        (fun r hr _ => by rw [h2 r hr]; exact hends_d)
    have hret : Rep s1 D1 (1 / 2 ^ k) (α + β - 1 / 2 ^ k) := by
      rw [← hα, add_sub_cancel_left]; exact hrep1
    have hDge : (∀ x, m < x → D1.eval x ≠ 0) → ∀ x, α + β ≤ x → D.eval x ≠ 0 := by
      intro hx x hxb
      have hxm : m < x := hnode.mb.trans_le hxb
      rw [hD, eval_mul]
      refine mul_ne_zero ?_ (hx x hxm)
      split
      · simp only [eval_sub, eval_X, eval_C]; exact sub_ne_zero.mpr hxm.ne'
      · simp
    rw [hbe]
    cases hvz : variationsIsZero s1.up s1.deg with
    | none => rw [hvz] at h; cases h
    | some nv =>
    rw [hvz] at h
    rcases nv with _ | nv
    · -- no sign variation at all
      simp only at h
      injection h with e1 e2 e3; subst e1 e2 e3
      have hno := hnode.pos hvz
      obtain ⟨g1, g2, g3⟩ := hsplit [] [] (by simp) (by simp)
        (isolates_nil fun x hx => hno x hx.1) (isolates_nil fun x hx => hno x (hnode.am.trans hx.1))
      simp only [List.nil_append, List.append_nil] at g1 g2 g3
      exact ⟨D1, g1, g2, g3, fun _ => hDge fun x hx => hno x (hnode.am.trans hx), fun k' hk' => by cases hk'⟩
    simp only at h
    obtain ⟨nb, hnb, hv⟩ := descartes_spec (tabOf s1) s1.up s1.deg s1.pwx hnode.zero hs1.deg_pos hs1.sz
      hs1.tab
    rw [hnb] at h
    simp only at h
    set v := varShift (reversed s1.up s1.deg) s1.deg
    have hv : nb < 3 → nb = v := fun hlt => hv.resolve_right fun h => by omega
    by_cases hn0 : nb = 0
    · rw [if_pos hn0] at h
      injection h with e1 e2 e3; subst e1 e2 e3
      have hv0 : v = 0 := by rw [← hv (by omega), hn0]
      have hno : ∀ y, β < y → y < α + β → D1.eval y ≠ 0 := by
        intro y h1 h2 h3
        have := hnode.card {y} (by simpa using ⟨h1, h2, h3⟩)
        rw [hv0, Finset.card_singleton] at this
        omega
      obtain ⟨g1, g2, g3⟩ := hsplit [] [] (by simp) (by simp)
        (isolates_nil fun x hx => hno x hx.1 (hx.2.trans hnode.mb))
        (isolates_nil fun x hx => hno x (hnode.am.trans hx.1) hx.2)
      simp only [List.nil_append, List.append_nil] at g1 g2 g3
      exact ⟨D1, g1, g2, g3, fun h => (by cases h), fun k' hk' => by cases hk'; exact ⟨le_rfl, hs1, hret⟩⟩
    rw [if_neg hn0] at h
    have htop : (evalOne s1.up s1.deg).sign ≠ 0 := fun h => hnode.one (Int.sign_eq_zero_iff_zero.mp h)
    have hpm : ∀ z : ℤ, z.sign ≠ 0 → z.sign = 1 ∨ z.sign = -1 := fun z hz =>
      sign_cases fun h => hz (by rw [h]; rfl)
    by_cases hn1 : nb = 1
    · rw [if_pos hn1] at h
      injection h with e1 e2 e3; subst e1 e2 e3
      have hv1 : v = 1 := by rw [← hv (by omega), hn1]
      have huniq : ∀ x y, β < x → x < α + β → D1.eval x = 0 → β < y → y < α + β → D1.eval y = 0 → y = x := by
        intro x y h1 h2 h3 h4 h5 h6
        by_contra hne
        have := hnode.card {y, x} (by
          intro z hz
          rcases Finset.mem_insert.mp hz with rfl | hz
          · exact ⟨h4, h5, h6⟩
          · rw [Finset.mem_singleton.mp hz]; exact ⟨h1, h2, h3⟩)
        rw [hv1, Finset.card_pair hne] at this
        omega
      have hopp : (s1.up 0).sign * (evalOne s1.up s1.deg).sign < 0 := by
        have hne : (evalOne s1.up s1.deg).sign ≠ (s1.up 0).sign := by
          intro h
          have := hnode.even.mpr h
          rw [hv1] at this
          exact absurd this (by decide)
        rcases sign_cases hnode.zero with h | h <;> rcases hpm _ htop with h' | h' <;> rw [h, h'] at hne ⊢ <;>
          first | exact absurd rfl hne | decide
      cases half with
      | false =>
        obtain ⟨x, x1, x2, x3⟩ := hnode.sall hopp
        have hDD : D = D1 := by rw [hD]; simp
        have ho : oneCase c k false (s1.up 0).sign (evalOne s1.up s1.deg).sign shalf = [⟨c, k, false⟩] := by
          unfold oneCase
          rw [if_neg (by decide), if_pos htop]
        rw [ho]
        refine ⟨D1, ?_, ?_, ?_, fun h => (by cases h), fun k' hk' => by cases hk'; exact ⟨le_rfl, hs1, hret⟩⟩
        · rw [exProd_open _ (by simp), mul_one]; exact hDD
        · rw [List.map_singleton]
          unfold rawCell
          simp only
          rw [hbe, hDD]
          exact isolates_one x1 x2 x3 fun y y1 y2 y3 => huniq x y x1 x2 x3 y1 y2 y3
        · intro r hr _
          rw [List.mem_singleton.mp hr]
          simp only
          rw [hbe]
          exact ⟨hD1 _ ha, hD1 _ hb⟩
      | true =>
        by_cases hbs : (s1.up 0).sign * shalf < 0
        · have ho : oneCase c k true (s1.up 0).sign (evalOne s1.up s1.deg).sign shalf
              = [⟨2 * c, k + 1, false⟩] ++ halfRec c k true ++ [] := by
            unfold oneCase halfRec
            rw [if_pos rfl, if_pos hbs, if_pos rfl]; rfl
          rw [ho]
          obtain ⟨x, x1, x2, x3⟩ := hnode.sleft (by rw [← hsh]; exact hbs)
          obtain ⟨g1, g2, g3⟩ := hsplit [⟨2 * c, k + 1, false⟩] [] (by simp) (by simp) (by
            rw [List.map_singleton]
            unfold rawCell
            simp only
            rw [hma, ← hae]
            exact isolates_one x1 x2 x3 fun y y1 y2 y3 =>
              huniq x y x1 (x2.trans hnode.mb) x3 y1 (y2.trans hnode.mb) y3) (isolates_nil fun y hy h0 => by
              have := huniq x y x1 (x2.trans hnode.mb) x3 (hnode.am.trans hy.1) hy.2 h0
              rw [this] at hy
              exact absurd hy.1 x2.not_gt)
          exact ⟨D1, g1, g2, g3, fun h => (by cases h), fun k' hk' => by cases hk'; exact ⟨le_rfl, hs1, hret⟩⟩
        · have ho : oneCase c k true (s1.up 0).sign (evalOne s1.up s1.deg).sign shalf
              = [] ++ halfRec c k true ++ [⟨2 * c + 1, k + 1, false⟩] := by
            unfold oneCase halfRec
            rw [if_pos rfl, if_neg hbs, if_pos htop, if_pos rfl]; rfl
          rw [ho]
          have hst : shalf * (evalOne s1.up s1.deg).sign < 0 := by
            have hshz : (evalOneHalf s1.up s1.deg).sign ≠ 0 := by rw [← hsh]; exact hsh0
            rw [hsh] at hbs ⊢
            rcases sign_cases hnode.zero with h | h <;> rcases hpm _ htop with h' | h' <;>
              rcases hpm _ hshz with h'' | h'' <;> rw [h, h'] at hopp <;> rw [h, h''] at hbs <;> rw [h', h''] <;>
              first | decide | exact absurd (by decide) hbs | exact absurd hopp (by decide)
          obtain ⟨x, x1, x2, x3⟩ := hnode.sright (by rw [← hsh]; exact hst)
          obtain ⟨g1, g2, g3⟩ := hsplit [] [⟨2 * c + 1, k + 1, false⟩] (by simp) (by simp)
            (isolates_nil fun y hy h0 => by
              have := huniq x y (hnode.am.trans x1) x2 x3 hy.1 (hy.2.trans hnode.mb) h0
              rw [this] at hy
              exact absurd hy.2 x1.not_gt) (by
            rw [List.map_singleton]
            unfold rawCell
            simp only
            rw [hbm, ← hm]
            exact isolates_one x1 x2 x3 fun y y1 y2 y3 =>
              huniq x y (hnode.am.trans x1) x2 x3 (hnode.am.trans y1) y2 y3)
          exact ⟨D1, g1, g2, g3, fun h => (by cases h), fun k' hk' => by cases hk'; exact ⟨le_rfl, hs1, hret⟩⟩
    rw [if_neg hn1] at h
    by_cases hn2 : nb = 2 ∧ (s1.up 0).sign * shalf < 0 ∧ (evalOne s1.up s1.deg).sign * shalf ≤ 0
    · rw [if_pos hn2] at h
      injection h with e1 e2 e3; subst e1 e2 e3
      obtain ⟨hn2, hbs, hts⟩ := hn2
      have hv2 : v = 2 := by rw [← hv (by omega), hn2]
      have hts' : (evalOneHalf s1.up s1.deg).sign * (evalOne s1.up s1.deg).sign < 0 := by
        rw [← hsh, mul_comm]
        exact lt_of_le_of_ne hts (mul_ne_zero htop hsh0)
      obtain ⟨x, x1, x2, x3⟩ := hnode.sleft (by rw [← hsh]; exact hbs)
      obtain ⟨y, y1, y2, y3⟩ := hnode.sright hts'
      have huniq : ∀ z, β < z → z < α + β → D1.eval z = 0 → z = x ∨ z = y := by
        intro z h1 h2 h3
        by_contra hne
        push Not at hne
        have hxy : x ≠ y := (x2.trans y1).ne
        have := hnode.card {z, x, y} (by
          intro w hw
          simp only [Finset.mem_insert, Finset.mem_singleton] at hw
          rcases hw with rfl | rfl | rfl
          · exact ⟨h1, h2, h3⟩
          · exact ⟨x1, x2.trans hnode.mb, x3⟩
          · exact ⟨hnode.am.trans y1, y2, y3⟩)
        rw [hv2, Finset.card_eq_three.mpr ⟨z, x, y, hne.1, hne.2, hxy, rfl⟩] at this
        omega
      have ho : twoCase c k half (evalOne s1.up s1.deg).sign
          = [⟨2 * c, k + 1, false⟩] ++ halfRec c k half ++ [⟨2 * c + 1, k + 1, false⟩] := by
        unfold twoCase
        rw [if_pos htop]
      rw [ho]
      obtain ⟨g1, g2, g3⟩ := hsplit [⟨2 * c, k + 1, false⟩] [⟨2 * c + 1, k + 1, false⟩] (by simp) (by simp) (by
          rw [List.map_singleton]
          unfold rawCell
          simp only
          rw [hma, ← hae]
          refine isolates_one x1 x2 x3 fun z z1 z2 z3 => ?_
          rcases huniq z z1 (z2.trans hnode.mb) z3 with h | h
          · exact h
          · rw [h] at z2; exact absurd z2 y1.not_gt) (by
          rw [List.map_singleton]
          unfold rawCell
          simp only
          rw [hbm, ← hm]
          refine isolates_one y1 y2 y3 fun z z1 z2 z3 => ?_
          rcases huniq z (hnode.am.trans z1) z2 z3 with h | h
          · rw [h] at z1; exact absurd z1 x2.not_gt
          · exact h)
      exact ⟨D1, g1, g2, g3, fun h => (by cases h), fun k' hk' => by cases hk'; exact ⟨le_rfl, hs1, hret⟩⟩
    rw [if_neg hn2] at h
    -- splitting
    set s2 : St := { s1 with up := (rescale s1.up (-1) s1.deg).2 } with hs2
    have hv2 : Valid s2 := ⟨rescale_ne hs1.lead, hs1.cur, hs1.pwx, hs1.npwr⟩
    have hrep2 : Rep s2 D1 (1 / 2 ^ (k + 1)) (((2 * c : ℕ) : ℝ) / 2 ^ (k + 1)) := by
      obtain ⟨u, hu, hue⟩ := hrep1.eval
      refine Rep.of_eval (u := 2 ^ (s1.deg * 1) * u / 2 ^ (rescale s1.up (-1) s1.deg).1)
        (div_ne_zero (mul_ne_zero (by positivity) hu) (by positivity)) fun x => ?_
      have := rescale_aeval (K := ℝ) s1.up (-1) s1.deg x
      rw [← rp_eval, ← rp_eval, hue] at this
      rw [div_mul_eq_mul_div, eq_div_iff (by positivity)]
      simp only [hs2]
      rw [mul_comm _ ((2 : ℝ) ^ _), this, if_neg (by decide), ← hae]
      rw [show ((- -1 : ℤ)).toNat = 1 from rfl, show α * ((2 : ℝ) ^ (-1 : ℤ) * x) + β = 1 / 2 ^ (k + 1) * x + β by
        rw [hα, zpow_neg_one, pow_succ]; field_simp]
      ring
    cases hleft : bisect fuel s2 (2 * c) (k + 1) with
    | fuel => rw [hleft] at h; cases h
    | exit => rw [hleft] at h; cases h
    | hang => rw [hleft] at h; cases h
    | done sl outl retl =>
    rw [hleft] at h
    obtain ⟨DL, hL⟩ := ih s2 (2 * c) (k + 1) D1 sl outl retl hv2 hrep2 hends_c.1 hends_c.2 hleft
    rw [hma, ← hae] at hL
    cases retl with
    | none =>
      simp only at h
      injection h with e1 e2 e3; subst e1 e2 e3
      have hno := hL.none rfl
      obtain ⟨g1, g2, g3⟩ := post_split (DL := DL) (DR := DL) (o2 := []) hβ hbe.symm hD hm1 hL.fact hL.iso hL.ends
        (by rw [exProd_nil, mul_one])
        (isolates_nil fun x hx h0 => hno x hx.1.le (by rw [hL.fact, eval_mul, h0, zero_mul])) (by simp)
      simp only [List.append_nil] at g1 g2 g3
      exact ⟨DL, g1, g2, g3, fun _ => hDge fun x hx => hno x hx.le, fun k' hk' => by cases hk'⟩
    | some oldk =>
    simp only at h
    obtain ⟨hk1, hvl, hrepl⟩ := hL.some oldk rfl
    obtain ⟨g, hg1, hg2⟩ := dac_spec (tabOf sl) sl.up sl.deg sl.pwx hvl.deg_pos hvl.sz hvl.tab
    rw [hg1] at h
    simp only at h
    have hglead : g sl.deg ≠ 0 := by
      have := congrArg (fun p => p.coeff sl.deg) hg2
      simp only [coeff_toPoly, le_refl, if_true] at this
      rw [this, coeff_shift_top]
      exact hvl.lead
    have hgeval : ∀ x, (rp g sl.deg).eval x = (rp sl.up sl.deg).eval (x + 1) := by
      intro x
      rw [rp_eval, rp_eval, hg2, aeval_comp]
      simp
    set g' := if k + 1 < oldk then (rescale g ((oldk : ℤ) - (k + 1)) sl.deg).2 else g with hg'
    set s3 : St := { sl with up := g' } with hs3
    have hv3 : Valid s3 := by
      refine ⟨?_, hvl.cur, hvl.pwx, hvl.npwr⟩
      simp only [hs3, hg']
      split
      · exact rescale_ne hglead
      · exact hglead
    have hrep3 : Rep s3 DL (1 / 2 ^ (k + 1)) (((2 * c + 1 : ℕ) : ℝ) / 2 ^ (k + 1)) := by
      obtain ⟨u, hu, hue⟩ := hrepl.eval
      rw [← hm]
      by_cases hlt : k + 1 < oldk
      · refine Rep.of_eval (u := u / 2 ^ (rescale g ((oldk : ℤ) - (k + 1)) sl.deg).1)
          (div_ne_zero hu (by positivity)) fun x => ?_
        have := rescale_aeval (K := ℝ) g ((oldk : ℤ) - (k + 1)) sl.deg x
        rw [if_pos (by omega), one_mul, ← rp_eval, ← rp_eval, hgeval, hue] at this
        rw [div_mul_eq_mul_div, eq_div_iff (by positivity)]
        simp only [hs3, hg', if_pos hlt]
        rw [mul_comm _ ((2 : ℝ) ^ _), this]
        congr 2
        have e : (2 : ℝ) ^ ((oldk : ℤ) - (k + 1)) = 2 ^ oldk / 2 ^ (k + 1) := by
          rw [zpow_sub₀ (by norm_num), zpow_natCast]
          congr 1
        rw [e]
        field_simp
        ring
      · have hke : oldk = k + 1 := by omega
        refine Rep.of_eval (u := u) hu fun x => ?_
        simp only [hs3, hg', if_neg hlt]
        rw [hgeval, hue, hke]
        congr 2
        ring
    have hDLne : ∀ x, D1.eval x ≠ 0 → DL.eval x ≠ 0 := by
      intro x hx h0
      apply hx
      rw [hL.fact, eval_mul, h0, zero_mul]
    cases hright : bisect fuel s3 (2 * c + 1) (k + 1) with
    | fuel => rw [hright] at h; cases h
    | exit => rw [hright] at h; cases h
    | hang => rw [hright] at h; cases h
    | done sr outr retr =>
    rw [hright] at h
    simp only at h
    cases h
    obtain ⟨DR, hR⟩ := ih s3 (2 * c + 1) (k + 1) DL s' outr ret hv3 hrep3 (hDLne _ hends_d.1) (hDLne _ hends_d.2) hright
    rw [hbm, ← hm] at hR
    obtain ⟨g1, g2, g3⟩ := post_split (DL := DL) (DR := DR) hβ hbe.symm hD hm1 hL.fact hL.iso hL.ends
      hR.fact hR.iso hR.ends
    refine ⟨DR, g1, g2, g3, fun hn x hx => ?_, fun k' hk' => ?_⟩
    · have hxm : m < x := hnode.mb.trans_le hx
      rw [hD, eval_mul]
      refine mul_ne_zero ?_ ?_
      · split
        · simp only [eval_sub, eval_X, eval_C]; exact sub_ne_zero.mpr hxm.ne'
        · simp
      · rw [hL.fact, eval_mul]
        refine mul_ne_zero (hR.none hn x hx) (exProd_eval_ne fun r hr he => ?_)
        exact ((exact_mem hL.iso r hr he).2.trans hxm).ne'
    · obtain ⟨q1, q2, q3⟩ := hR.some k' hk'
      exact ⟨by omega, q2, q3⟩

end Verif.UIsolate
