import Verif.UIsolateSpec
import Mathlib.Algebra.Order.Field.Power
import Mathlib.RingTheory.Coprime.Basic
import Mathlib.RingTheory.Polynomial.Basic

/-!
Isolation of all real roots.
Source: src/usolve/usolve.c 154-210 (`merge_root`), 962-985 (table of powers), 1085-1265
(`bisection_Uspensky`).
-/
namespace Verif.UIsolate
open Verif.UPoly Verif.UEval Verif.UScale Verif.UTaylor Verif.USign Verif.UDescartes Verif.UBound Verif.Isolate
open Polynomial

/-- usolve.c 154-210 (`merge_root`). The bounds, converted to `int` by the code, are unbounded here. -/
def merge (bpos bneg : ℤ) (sgn : Bool) (c k : ℤ) (exact : Bool) : Ival :=
  let b := if sgn = true then bneg else bpos
  let c' := if sgn = true then (if exact = true then -c else -c - 1) else c
  if k ≤ b then ⟨c' * 2 ^ (b - k).toNat, if exact = true then 0 else k - b, exact⟩
  else ⟨c', k - b, exact⟩

/-- usolve.c 962-985 (`initialize_heap_flags`). `none`: `compute_degpower(0)` does not end. -/
def initSt (up : ℕ → ℤ) (deg : ℕ) : Option St :=
  (degPower deg).map fun p => ⟨up, deg, deg, p, if deg ≤ p then 0 else Nat.log 2 (deg / p)⟩

/-- usolve.c 1146-1168 and 1201-1223: bound, rescaling and bisection for one sign. -/
def side (fuel : ℕ) (up : ℕ → ℤ) (deg : ℕ) : Res :=
  match initSt (rescale up (boundRoots up deg) deg).2 deg with
  | none => .hang
  | some s => bisect fuel s 0 0

/-- The outcome of `bisection_Uspensky`: the array of roots and the two counters. -/
inductive URes where
  | fuel | exit | hang
  | done (roots : List Ival) (nbpos nbneg : ℕ)

/-- The records of one sign; a constant polynomial is not bisected (`deg > 0`). -/
def sideRecs (fuel : ℕ) (up : ℕ → ℤ) (deg : ℕ) : Res :=
  if 0 < deg then side fuel up deg else .done ⟨up, deg, 0, 0, 0⟩ [] none

/-- usolve.c 1085-1265 (`bisection_Uspensky`) for `search = 0` (the value set by `initialize_flags`). -/
def uspensky (fuel : ℕ) (up0 : ℕ → ℤ) (deg0 : ℕ) : URes :=
  if up0 0 = 0 ∧ up0 1 = 0 then .exit
  else
    let zero := if up0 0 = 0 then [merge 0 0 true 0 0 true] else []
    let deg := if up0 0 = 0 then deg0 - 1 else deg0
    let up : ℕ → ℤ := if up0 0 = 0 then fun i => up0 (1 + i) else up0
    let upn : ℕ → ℤ := fun i => if i % 2 = 1 then -up i else up i
    let bpos := if 0 < deg then boundRoots up deg else 0
    let bneg := if 0 < deg then boundRoots upn deg else 0
    match sideRecs fuel up deg with
    | .fuel => .fuel
    | .exit => .exit
    | .hang => .hang
    | .done _ outp _ =>
      match sideRecs fuel upn deg with
      | .fuel => .fuel
      | .exit => .exit
      | .hang => .hang
      | .done _ outn _ =>
        let pos := zero ++ outp.map fun r => merge bpos 0 false r.c r.k r.exact
        let neg := outn.map fun r => merge bpos bneg true r.c r.k r.exact
        .done (neg.reverse ++ pos) pos.length neg.length

/-- The factor of an exact root. -/
noncomputable def exFactor (r : Cell) : ℝ[X] := if r.exact = true then X - C r.lo else 1

noncomputable def exCells (out : List Cell) : ℝ[X] := (out.map exFactor).prod

theorem exCells_append (o1 o2 : List Cell) : exCells (o1 ++ o2) = exCells o1 * exCells o2 := by
  unfold exCells; rw [List.map_append, List.prod_append]

theorem exCells_eval_ne {out : List Cell} {x : ℝ} (h : ∀ r ∈ out, r.exact = true → x ≠ r.lo) :
    (exCells out).eval x ≠ 0 := by
  induction out with
  | nil => simp [exCells]
  | cons r out ih =>
    have ih := ih fun r' hr' => h r' (List.mem_cons_of_mem _ hr')
    unfold exCells at ih ⊢
    rw [List.map_cons, List.prod_cons, eval_mul]
    refine mul_ne_zero ?_ ih
    unfold exFactor
    split
    · rename_i he
      simp only [eval_sub, eval_X, eval_C]
      exact sub_ne_zero.mpr (h r List.mem_cons_self he)
    · simp

theorem exCells_reverse (o : List Cell) : exCells o.reverse = exCells o := by
  unfold exCells; rw [List.map_reverse, List.prod_reverse]

/-- The cells are those of the zeros of `P` and the quotient of `P` by the factors of the exact roots does not
vanish at the ends of the open cells. -/
structure Sep (P : ℝ[X]) (I : Set ℝ) (out : List Cell) : Prop where
  iso : Isolates P I out
  ends : ∃ Q, P = Q * exCells out ∧ ∀ r ∈ out, r.exact = false → Q.eval r.lo ≠ 0 ∧ Q.eval r.hi ≠ 0

theorem isolates_image {A : Type} {D E : ℝ[X]} {I : Set ℝ} {raws : List A} {g0 g : A → Cell} {f : ℝ → ℝ}
    (hf : StrictMono f) (hg : ∀ r ∈ raws, (g r).set = f '' (g0 r).set) (hDE : ∀ x, D.eval x = 0 ↔ E.eval (f x) = 0)
    (h : Isolates D I (raws.map g0)) : Isolates E (f '' I) (raws.map g) := by
  refine ⟨fun r hr => ?_, fun r hr => ?_, fun x hx h0 => ?_, ?_⟩
  · obtain ⟨a, ha, rfl⟩ := List.mem_map.mp hr
    obtain ⟨x, ⟨hx1, hx2⟩, hu⟩ := h.unique (g0 a) (List.mem_map.mpr ⟨a, ha, rfl⟩)
    rw [hg a ha]
    refine ⟨f x, ⟨⟨x, hx1, rfl⟩, (hDE x).mp hx2⟩, ?_⟩
    rintro y ⟨⟨z, hz, rfl⟩, hy⟩
    rw [hu z ⟨hz, (hDE z).mpr hy⟩]
  · obtain ⟨a, ha, rfl⟩ := List.mem_map.mp hr
    rw [hg a ha]
    exact Set.image_mono (h.sub (g0 a) (List.mem_map.mpr ⟨a, ha, rfl⟩))
  · obtain ⟨z, hz, rfl⟩ := hx
    obtain ⟨r, hr, hx⟩ := h.cover z hz ((hDE z).mpr h0)
    obtain ⟨a, ha, rfl⟩ := List.mem_map.mp hr
    exact ⟨g a, List.mem_map.mpr ⟨a, ha, rfl⟩, by rw [hg a ha]; exact ⟨z, hx, rfl⟩⟩
  · have := h.order
    rw [List.pairwise_map] at this ⊢
    refine this.imp_of_mem ?_
    intro a b ha hb hab x hx y hy
    rw [hg a ha] at hx
    rw [hg b hb] at hy
    obtain ⟨x, hx, rfl⟩ := hx
    obtain ⟨y, hy, rfl⟩ := hy
    exact hf (hab x hx y hy)

theorem isolates_image_anti {A : Type} {D E : ℝ[X]} {I : Set ℝ} {raws : List A} {g0 g : A → Cell} {f : ℝ → ℝ}
    (hf : StrictAnti f) (hg : ∀ r ∈ raws, (g r).set = f '' (g0 r).set) (hDE : ∀ x, D.eval x = 0 ↔ E.eval (f x) = 0)
    (h : Isolates D I (raws.map g0)) : Isolates E (f '' I) (raws.map g).reverse := by
  refine ⟨fun r hr => ?_, fun r hr => ?_, fun x hx h0 => ?_, ?_⟩
  · obtain ⟨a, ha, rfl⟩ := List.mem_map.mp (List.mem_reverse.mp hr)
    obtain ⟨x, ⟨hx1, hx2⟩, hu⟩ := h.unique (g0 a) (List.mem_map.mpr ⟨a, ha, rfl⟩)
    rw [hg a ha]
    refine ⟨f x, ⟨⟨x, hx1, rfl⟩, (hDE x).mp hx2⟩, ?_⟩
    rintro y ⟨⟨z, hz, rfl⟩, hy⟩
    rw [hu z ⟨hz, (hDE z).mpr hy⟩]
  · obtain ⟨a, ha, rfl⟩ := List.mem_map.mp (List.mem_reverse.mp hr)
    rw [hg a ha]
    exact Set.image_mono (h.sub (g0 a) (List.mem_map.mpr ⟨a, ha, rfl⟩))
  · obtain ⟨z, hz, rfl⟩ := hx
    obtain ⟨r, hr, hx⟩ := h.cover z hz ((hDE z).mpr h0)
    obtain ⟨a, ha, rfl⟩ := List.mem_map.mp hr
    exact ⟨g a, List.mem_reverse.mpr (List.mem_map.mpr ⟨a, ha, rfl⟩), by rw [hg a ha]; exact ⟨z, hx, rfl⟩⟩
  · have := h.order
    rw [List.pairwise_reverse, List.pairwise_map]
    rw [List.pairwise_map] at this
    refine this.imp_of_mem ?_
    intro a b ha hb hab x hx y hy
    rw [hg b hb] at hx
    rw [hg a ha] at hy
    obtain ⟨x, hx, rfl⟩ := hx
    obtain ⟨y, hy, rfl⟩ := hy
    exact hf (hab y hy x hx)

/-! ### one sign -/

theorem initSt_spec {up : ℕ → ℤ} {deg : ℕ} {s : St} (hlead : up deg ≠ 0) (h : initSt up deg = some s) :
    Valid s ∧ s.up = up ∧ s.deg = deg := by
  unfold initSt at h
  obtain ⟨p, hp, rfl⟩ := Option.map_eq_some_iff.mp h
  refine ⟨⟨hlead, rfl, hp, ?_⟩, rfl, rfl⟩
  simp only
  split
  · rename_i hle
    have : deg / p ≤ 1 := by
      rcases Nat.eq_zero_or_pos p with h0 | h0
      · subst h0; simp
      · exact Nat.div_le_of_le_mul (by omega)
    simpa using Nat.log_mono_right (b := 2) this
  · exact le_rfl

/-- The cell of a record of the bisection for the bound `2^b`. -/
noncomputable def scCell (b : ℤ) (r : Raw) : Cell :=
  ⟨2 ^ b * ((r.c : ℝ) / 2 ^ r.k), 2 ^ b * (((r.c : ℝ) + 1) / 2 ^ r.k), r.exact⟩

theorem set_image_mul {a : ℝ} (ha : 0 < a) (r : Cell) :
    (Cell.mk (a * r.lo) (a * r.hi) r.exact).set = (fun x => a * x) '' r.set := by
  unfold Cell.set
  simp only
  split
  · simp
  · ext x
    constructor
    · rintro ⟨h1, h2⟩
      refine ⟨x / a, ⟨?_, ?_⟩, by field_simp⟩
      · rw [lt_div_iff₀ ha]; linarith
      · rw [div_lt_iff₀ ha]; linarith
    · rintro ⟨y, ⟨h1, h2⟩, rfl⟩
      exact ⟨mul_lt_mul_of_pos_left h1 ha, mul_lt_mul_of_pos_left h2 ha⟩

theorem rescale_rp (up : ℕ → ℤ) (b : ℤ) (deg : ℕ) : ∃ u : ℝ, u ≠ 0 ∧
    ∀ x, (rp (rescale up b deg).2 deg).eval x = u * (rp up deg).eval (2 ^ b * x) := by
  refine ⟨(if 0 < b then 1 else 2 ^ (deg * (-b).toNat)) / 2 ^ (rescale up b deg).1, ?_, fun x => ?_⟩
  · refine div_ne_zero ?_ (by positivity)
    split
    · exact one_ne_zero
    · positivity
  · have := rescale_aeval (K := ℝ) up b deg x
    rw [← rp_eval, ← rp_eval] at this
    rw [div_mul_eq_mul_div, eq_div_iff (by positivity), mul_comm, this]

theorem side_spec {fuel : ℕ} {up : ℕ → ℤ} {deg : ℕ} {s : St} {out : List Raw} {ret : Option ℕ}
    (hlead : up deg ≠ 0) (h0 : up 0 ≠ 0) (h : side fuel up deg = .done s out ret) :
    Sep (rp up deg) (Set.Ioi 0) (out.map (scCell (boundRoots up deg))) := by
  unfold side at h
  set b := boundRoots up deg with hb
  have hapos : (0 : ℝ) < 2 ^ b := by positivity
  have hnb : ∀ x : ℝ, (2 : ℝ) ^ b ≤ x → (rp up deg).eval x ≠ 0 := by
    intro x hx h1
    have := boundRoots_spec hlead x (hapos.trans_le hx) (Or.inl hx)
    rw [← rp_eval, h1, mul_zero] at this
    exact lt_irrefl _ this
  obtain ⟨u, hu, hue⟩ := rescale_rp up b deg
  split at h
  · cases h
  · rename_i s0 hs0
    have hl : (rescale up b deg).2 deg ≠ 0 := rescale_ne hlead
    obtain ⟨hv, hs1, hs2⟩ := initSt_spec hl hs0
    have hr0 : ∀ x, (rp s0.up s0.deg).eval x = u * (rp up deg).eval (2 ^ b * x) := by
      rw [hs1, hs2]; exact hue
    have hup0 : (rp up deg).eval 0 ≠ 0 := by
      have := rp_eval_zero up deg
      rw [one_mul] at this
      rw [← this]
      exact_mod_cast h0
    have hpost := bisect_spec fuel s0 0 0 (rp s0.up s0.deg) s out ret hv ⟨1, one_ne_zero, by simp⟩ ?_ ?_ h
    · obtain ⟨D', hp⟩ := hpost
      have hiso := hp.iso
      simp only [Nat.cast_zero, pow_zero, zero_add, div_one] at hiso
      refine ⟨?_, ?_⟩
      · have hmap := isolates_image (E := rp up deg) (g := scCell b) (f := fun x => (2 : ℝ) ^ b * x)
          (fun x y hxy => mul_lt_mul_of_pos_left hxy hapos)
          (fun r _ => set_image_mul hapos (rawCell r))
          (fun x => by rw [hr0 x, mul_eq_zero, or_iff_right hu]) hiso
        have hset : (fun x => (2 : ℝ) ^ b * x) '' Set.Ioo 0 1 = Set.Ioo 0 (2 ^ b) := by
          have := set_image_mul hapos ⟨0, 1, false⟩
          simpa [Cell.set] using this.symm
        rw [hset] at hmap
        exact ⟨hmap.unique, fun r hr x hx => (hmap.sub r hr hx).1,
          fun x hx h1 => hmap.cover x ⟨hx, lt_of_not_ge fun hge => hnb x hge h1⟩ h1, hmap.order⟩
      · -- the product
        have hprod : ∀ (l : List Raw) (x : ℝ), (exProd l).eval ((2 ^ b)⁻¹ * x)
            = ((2 : ℝ) ^ b)⁻¹ ^ (l.filter (·.exact)).length * (exCells (l.map (scCell b))).eval x := by
          intro l x
          induction l with
          | nil => simp [exProd, exCells]
          | cons r l ih =>
            have e1 : exProd (r :: l) = exProd [r] * exProd l := exProd_append [r] l
            have e2 : exCells ((r :: l).map (scCell b)) = exCells [scCell b r] * exCells (l.map (scCell b)) :=
              exCells_append [scCell b r] (l.map (scCell b))
            rw [e1, e2, eval_mul, eval_mul, ih]
            cases he : r.exact with
            | false => simp [exProd, exCells, exFactor, scCell, he]
            | true =>
              simp only [exProd, exCells, exFactor, scCell, he, List.map_cons, List.map_nil, List.prod_cons,
                List.prod_nil, if_true, mul_one, eval_sub, eval_X, eval_C, List.filter_cons_of_pos, List.length_cons,
                pow_succ]
              field_simp
        set n := (out.filter (·.exact)).length
        refine ⟨C (u⁻¹ * ((2 : ℝ) ^ b)⁻¹ ^ n) * D'.comp (C ((2 ^ b)⁻¹) * X), ?_, ?_⟩
        · refine Polynomial.funext fun x => ?_
          have h1 := hr0 ((2 ^ b)⁻¹ * x)
          rw [hp.fact, eval_mul, hprod, mul_inv_cancel_left₀ hapos.ne'] at h1
          simp only [eval_mul, eval_C, eval_comp, eval_X]
          rw [show (rp up deg).eval x = u⁻¹ * (u * (rp up deg).eval x) by field_simp, ← h1]
          ring
        · intro r hr hex
          obtain ⟨a, ha, rfl⟩ := List.mem_map.mp hr
          obtain ⟨g1, g2⟩ := hp.ends a ha hex
          have hne : u⁻¹ * ((2 : ℝ) ^ b)⁻¹ ^ n ≠ 0 := mul_ne_zero (inv_ne_zero hu) (by positivity)
          simp only [scCell, eval_mul, eval_C, eval_comp, eval_X]
          refine ⟨mul_ne_zero hne ?_, mul_ne_zero hne ?_⟩
          · rw [← mul_assoc, inv_mul_cancel₀ hapos.ne', one_mul]; exact g1
          · rw [← mul_assoc, inv_mul_cancel₀ hapos.ne', one_mul]; exact g2
    · rw [hr0]
      simpa using ⟨hu, hup0⟩
    · rw [hr0]
      have := hnb (2 ^ b) le_rfl
      simpa using ⟨hu, this⟩

/-! ### all roots -/

theorem sep_congr {A : Type} {P : ℝ[X]} {I : Set ℝ} {raws : List A} {g g' : A → Cell}
    (hg : ∀ r ∈ raws, (g' r).exact = (g r).exact ∧ (g' r).lo = (g r).lo ∧
      ((g r).exact = false → (g' r).hi = (g r).hi)) (h : Sep P I (raws.map g)) : Sep P I (raws.map g') := by
  have hset : ∀ r ∈ raws, (g' r).set = id '' (g r).set := by
    intro r hr
    obtain ⟨h1, h2, h3⟩ := hg r hr
    rw [Set.image_id]
    unfold Cell.set
    rw [h1, h2]
    cases he : (g r).exact with
    | true => rfl
    | false => rw [h3 he]
  have hiso := isolates_image strictMono_id hset (fun x => Iff.rfl) h.iso
  rw [Set.image_id] at hiso
  refine ⟨hiso, ?_⟩
  obtain ⟨Q, hQ, he⟩ := h.ends
  refine ⟨Q, ?_, ?_⟩
  · rw [hQ]
    congr 1
    unfold exCells
    rw [List.map_map, List.map_map]
    congr 1
    refine List.map_congr_left fun r hr => ?_
    obtain ⟨h1, h2, h3⟩ := hg r hr
    simp only [Function.comp_apply, exFactor, h1, h2]
  · intro r hr hex
    obtain ⟨a, ha, rfl⟩ := List.mem_map.mp hr
    obtain ⟨h1, h2, h3⟩ := hg a ha
    rw [h1] at hex
    rw [h2, h3 hex]
    exact he (g a) (List.mem_map.mpr ⟨a, ha, rfl⟩) hex

theorem sep_neg {A : Type} {P : ℝ[X]} {raws : List A} {g g' : A → Cell}
    (hg : ∀ r ∈ raws, (g' r).exact = (g r).exact ∧ ((g r).exact = true → (g' r).lo = -(g r).lo) ∧
      ((g r).exact = false → (g' r).lo = -(g r).hi ∧ (g' r).hi = -(g r).lo))
    (h : Sep (P.comp (-X)) (Set.Ioi 0) (raws.map g)) : Sep P (Set.Iio 0) (raws.map g').reverse := by
  have hset : ∀ r ∈ raws, (g' r).set = (fun x => -x) '' (g r).set := by
    intro r hr
    obtain ⟨h1, h2, h3⟩ := hg r hr
    unfold Cell.set
    rw [h1]
    cases he : (g r).exact with
    | true => simp [h2 he]
    | false => simp [(h3 he).1, (h3 he).2]
  have hiso := isolates_image_anti (E := P) (fun x y hxy => neg_lt_neg hxy) hset (fun x => by simp) h.iso
  rw [show (fun x : ℝ => -x) '' Set.Ioi 0 = Set.Iio 0 by simp] at hiso
  refine ⟨hiso, ?_⟩
  obtain ⟨Q, hQ, he⟩ := h.ends
  have hprod : ∀ (l : List A), (∀ r ∈ l, r ∈ raws) → ∃ u : ℝ, u ≠ 0 ∧
      (exCells (l.map g)).comp (-X) = C u * exCells (l.map g') := by
    intro l
    induction l with
    | nil => intro _; exact ⟨1, one_ne_zero, by simp [exCells]⟩
    | cons r l ih =>
      intro hl
      obtain ⟨u, hu, ih⟩ := ih fun r' hr' => hl r' (List.mem_cons_of_mem _ hr')
      obtain ⟨h1, h2, h3⟩ := hg r (hl r List.mem_cons_self)
      have e1 : exCells ((r :: l).map g) = exFactor (g r) * exCells (l.map g) := by
        unfold exCells; rw [List.map_cons, List.map_cons, List.prod_cons]
      have e2 : exCells ((r :: l).map g') = exFactor (g' r) * exCells (l.map g') := by
        unfold exCells; rw [List.map_cons, List.map_cons, List.prod_cons]
      rw [e1, e2, mul_comp, ih]
      unfold exFactor
      rw [h1]
      cases hex : (g r).exact with
      | true =>
        refine ⟨-u, neg_ne_zero.mpr hu, ?_⟩
        simp only [if_true, sub_comp, X_comp, C_comp, h2 hex, C_neg]
        ring
      | false => exact ⟨u, hu, by simp⟩
  obtain ⟨u, hu, hpr⟩ := hprod raws fun r hr => hr
  refine ⟨Q.comp (-X) * C u, ?_, ?_⟩
  · have : P = (P.comp (-X)).comp (-X) := by rw [comp_assoc]; simp
    rw [this, hQ, mul_comp, hpr, exCells_reverse]
    ring
  · intro r hr hex
    obtain ⟨a, ha, rfl⟩ := List.mem_map.mp (List.mem_reverse.mp hr)
    obtain ⟨h1, h2, h3⟩ := hg a ha
    rw [h1] at hex
    obtain ⟨g1, g2⟩ := he (g a) (List.mem_map.mpr ⟨a, ha, rfl⟩) hex
    rw [(h3 hex).1, (h3 hex).2]
    simp only [eval_mul, eval_comp, eval_neg, eval_X, neg_neg, eval_C]
    exact ⟨mul_ne_zero g2 hu, mul_ne_zero g1 hu⟩

theorem exCells_coprime {N S : List Cell} (h : ∀ r ∈ N, r.exact = true → ∀ q ∈ S, q.exact = true → r.lo ≠ q.lo) :
    IsCoprime (exCells N) (exCells S) := by
  unfold exCells
  induction N with
  | nil => simpa using isCoprime_one_left
  | cons r N ih =>
    rw [List.map_cons, List.prod_cons]
    refine IsCoprime.mul_left ?_ (ih fun r' hr' => h r' (List.mem_cons_of_mem _ hr'))
    replace h : ∀ q ∈ S, r.exact = true → q.exact = true → r.lo ≠ q.lo :=
      fun q hq he he' => h r List.mem_cons_self he q hq he'
    clear ih
    induction S with
    | nil => simpa using isCoprime_one_right
    | cons q S ih =>
      rw [List.map_cons, List.prod_cons]
      refine IsCoprime.mul_right ?_ (ih fun q' hq' => h q' (List.mem_cons_of_mem _ hq'))
      unfold exFactor
      split
      · rename_i h1
        split
        · rename_i h2
          exact isCoprime_X_sub_C_of_isUnit_sub (sub_ne_zero.mpr (h q List.mem_cons_self h1 h2)).isUnit
        · exact isCoprime_one_right
      · exact isCoprime_one_left

theorem exact_lo_mem {P : ℝ[X]} {I : Set ℝ} {out : List Cell} (h : Isolates P I out) (r : Cell) (hr : r ∈ out)
    (he : r.exact = true) : r.lo ∈ I ∧ P.eval r.lo = 0 := by
  have hset : r.set = {r.lo} := by unfold Cell.set; rw [if_pos he]
  refine ⟨h.sub r hr (by rw [hset]; rfl), ?_⟩
  obtain ⟨x, ⟨hx1, hx2⟩, _⟩ := h.unique r hr
  rw [hset] at hx1
  rw [← Set.mem_singleton_iff.mp hx1]; exact hx2

/-- The negative roots, zero and the positive roots together. -/
theorem sep_join {P0 P : ℝ[X]} {z : Bool} {N S : List Cell} {hz : ℝ} (hP : P0 = (if z = true then X else 1) * P)
    (hP0 : P.eval 0 ≠ 0) (hN : Sep P (Set.Iio 0) N) (hS : Sep P (Set.Ioi 0) S) :
    Sep P0 Set.univ (N ++ ((if z = true then [⟨0, hz, true⟩] else []) ++ S)) := by
  have hzero : ∀ x, x ≠ 0 → (P.eval x = 0 ↔ P0.eval x = 0) := by
    intro x hx
    rw [hP, eval_mul]
    split
    · simp [hx]
    · simp
  have i1 : Isolates P0 (Set.Iio 0) N := isolates_congr hN.iso fun x hx => hzero x (ne_of_lt hx)
  have i2 : Isolates P0 (Set.Ioi 0) S := isolates_congr hS.iso fun x hx => hzero x (ne_of_gt hx)
  have i0 : Isolates P0 {0} (if z = true then [⟨0, hz, true⟩] else []) := by
    split
    · rename_i h
      refine isolates_point ?_
      rw [hP, if_pos h, eval_mul, eval_X, zero_mul]
    · rename_i h
      refine isolates_nil fun x hx => ?_
      rw [Set.mem_singleton_iff.mp hx, hP, if_neg h, one_mul]
      exact hP0
  refine ⟨?_, ?_⟩
  · have := isolates_append i1 (isolates_append i0 i2 (fun x hx y hy => by
      rw [Set.mem_singleton_iff.mp hx]; exact hy)) (fun x hx y hy => by
      rcases hy with hy | hy
      · rw [Set.mem_singleton_iff.mp hy]; exact hx
      · exact lt_trans hx hy)
    convert this using 1
    ext x
    simp only [Set.mem_univ, Set.mem_union, Set.mem_Iio, Set.mem_singleton_iff, Set.mem_Ioi, true_iff]
    rcases lt_trichotomy x 0 with h | h | h
    · exact Or.inl h
    · exact Or.inr (Or.inl h)
    · exact Or.inr (Or.inr h)
  · obtain ⟨Qn, hQn, en⟩ := hN.ends
    obtain ⟨Qp, hQp, ep⟩ := hS.ends
    have hNx : ∀ r ∈ N, r.exact = true → r.lo < 0 := fun r hr he => (exact_lo_mem hN.iso r hr he).1
    have hSx : ∀ r ∈ S, r.exact = true → 0 < r.lo := fun r hr he => (exact_lo_mem hS.iso r hr he).1
    have hcop : IsCoprime (exCells S) (exCells N) := exCells_coprime fun r hr he q hq he' =>
      ((hNx q hq he').trans (hSx r hr he)).ne'
    have hdvd : exCells S ∣ Qn := hcop.dvd_of_dvd_mul_right (by rw [← hQn, hQp]; exact dvd_mul_left _ _)
    obtain ⟨Q, hQ⟩ := hdvd
    have hEN : exCells N ≠ 0 := by
      intro h
      have := exCells_eval_ne (out := N) (x := 0) fun r hr he => (hNx r hr he).ne'
      rw [h] at this
      simp at this
    have hES : exCells S ≠ 0 := by
      intro h
      have := exCells_eval_ne (out := S) (x := 0) fun r hr he => (hSx r hr he).ne
      rw [h] at this
      simp at this
    have hQp' : Qp = Q * exCells N := by
      refine mul_right_cancel₀ hES ?_
      rw [← hQp, hQn, hQ]; ring
    have hex0 : exCells (if z = true then [(⟨0, hz, true⟩ : Cell)] else []) = if z = true then X else 1 := by
      split <;> simp [exCells, exFactor]
    refine ⟨Q, ?_, ?_⟩
    · rw [exCells_append, exCells_append, hex0, hP, hQn, hQ]; ring
    · have kN : ∀ x, Qn.eval x ≠ 0 → Q.eval x ≠ 0 := by
        intro x hx h
        apply hx
        rw [hQ, eval_mul, h, mul_zero]
      have kS : ∀ x, Qp.eval x ≠ 0 → Q.eval x ≠ 0 := by
        intro x hx h
        apply hx
        rw [hQp', eval_mul, h, zero_mul]
      intro r hr he
      rcases List.mem_append.mp hr with hr | hr
      · exact ⟨kN _ (en r hr he).1, kN _ (en r hr he).2⟩
      · rcases List.mem_append.mp hr with hr | hr
        · split at hr
          · rw [List.mem_singleton.mp hr] at he; cases he
          · cases hr
        · exact ⟨kS _ (ep r hr he).1, kS _ (ep r hr he).2⟩

theorem merge_pos (bp bn : ℤ) (r : Raw) :
    (icell (merge bp bn false r.c r.k r.exact)).exact = (scCell bp r).exact ∧
      (icell (merge bp bn false r.c r.k r.exact)).lo = (scCell bp r).lo ∧
      ((scCell bp r).exact = false → (icell (merge bp bn false r.c r.k r.exact)).hi = (scCell bp r).hi) := by
  have h2 : (2 : ℝ) ≠ 0 := two_ne_zero
  have hz : ∀ m : ℤ, 0 ≤ m → (2 : ℝ) ^ m.toNat = 2 ^ m := by
    intro m hm
    rw [← zpow_natCast, Int.toNat_of_nonneg hm]
  have hq : (2 : ℝ) ^ bp * (1 / 2 ^ r.k) = 2 ^ (bp - r.k) := by rw [zpow_sub₀ h2, zpow_natCast]; ring
  have hlo : (2 : ℝ) ^ bp * ((r.c : ℝ) / 2 ^ r.k) = r.c * 2 ^ (bp - r.k) := by rw [← hq]; ring
  have hhi : (2 : ℝ) ^ bp * (((r.c : ℝ) + 1) / 2 ^ r.k) = r.c * 2 ^ (bp - r.k) + 2 ^ (bp - r.k) := by rw [← hq]; ring
  by_cases hle : (r.k : ℤ) ≤ bp
  · refine ⟨?_, ?_, fun he => ?_⟩
    · simp [icell, merge, scCell, hle]
    · have : ¬ (0 < if r.exact = true then (0 : ℤ) else (r.k : ℤ) - bp) := by split <;> omega
      simp only [icell, merge, scCell, hle, if_true, Bool.false_eq_true, if_false, this, zpow_zero, mul_one]
      push_cast
      rw [hz _ (by omega), hlo]
    · have he : r.exact = false := he
      simp only [icell, merge, scCell, hle, if_true, Bool.false_eq_true, if_false, he,
        show ¬ (0 < (r.k : ℤ) - bp) by omega, zpow_zero, mul_one]
      push_cast
      rw [hz _ (by omega), hhi, neg_sub]
  · have hpos : 0 < (r.k : ℤ) - bp := by omega
    refine ⟨?_, ?_, fun he => ?_⟩
    · simp [icell, merge, scCell, hle]
    · simp only [icell, merge, scCell, hle, Bool.false_eq_true, if_false, hpos, if_true, neg_sub]
      push_cast
      rw [hlo]
    · simp only [icell, merge, scCell, hle, Bool.false_eq_true, if_false, hpos, if_true, neg_sub]
      push_cast
      rw [hhi]

theorem merge_neg (bp bn : ℤ) (r : Raw) :
    (icell (merge bp bn true r.c r.k r.exact)).exact = (scCell bn r).exact ∧
      ((scCell bn r).exact = true → (icell (merge bp bn true r.c r.k r.exact)).lo = -(scCell bn r).lo) ∧
      ((scCell bn r).exact = false → (icell (merge bp bn true r.c r.k r.exact)).lo = -(scCell bn r).hi ∧
        (icell (merge bp bn true r.c r.k r.exact)).hi = -(scCell bn r).lo) := by
  have h2 : (2 : ℝ) ≠ 0 := two_ne_zero
  have hz : ∀ m : ℤ, 0 ≤ m → (2 : ℝ) ^ m.toNat = 2 ^ m := by
    intro m hm
    rw [← zpow_natCast, Int.toNat_of_nonneg hm]
  have hq : (2 : ℝ) ^ bn * (1 / 2 ^ r.k) = 2 ^ (bn - r.k) := by rw [zpow_sub₀ h2, zpow_natCast]; ring
  have hlo : (2 : ℝ) ^ bn * ((r.c : ℝ) / 2 ^ r.k) = r.c * 2 ^ (bn - r.k) := by rw [← hq]; ring
  have hhi : (2 : ℝ) ^ bn * (((r.c : ℝ) + 1) / 2 ^ r.k) = r.c * 2 ^ (bn - r.k) + 2 ^ (bn - r.k) := by rw [← hq]; ring
  by_cases hle : (r.k : ℤ) ≤ bn
  · refine ⟨?_, fun he => ?_, fun he => ?_⟩
    · simp [icell, merge, scCell, hle]
    · have he : r.exact = true := he
      simp only [icell, merge, scCell, hle, if_true, he, lt_irrefl, if_false, zpow_zero, mul_one]
      push_cast
      rw [hz _ (by omega), hlo]; ring
    · have he : r.exact = false := he
      simp only [icell, merge, scCell, hle, if_true, Bool.false_eq_true, if_false, he,
        show ¬ (0 < (r.k : ℤ) - bn) by omega, zpow_zero, mul_one]
      push_cast
      rw [hz _ (by omega), hhi, hlo, neg_sub]
      constructor <;> ring
  · have hpos : 0 < (r.k : ℤ) - bn := by omega
    refine ⟨?_, fun he => ?_, fun he => ?_⟩
    · simp [icell, merge, scCell, hle]
    · have he : r.exact = true := he
      simp only [icell, merge, scCell, hle, if_false, he, hpos, if_true, neg_sub]
      push_cast
      rw [hlo]; ring
    · have he : r.exact = false := he
      simp only [icell, merge, scCell, hle, Bool.false_eq_true, if_false, he, hpos, if_true, neg_sub]
      push_cast
      rw [hhi, hlo]
      constructor <;> ring

theorem sideRecs_spec {fuel : ℕ} {up : ℕ → ℤ} {deg : ℕ} {s : St} {out : List Raw} {ret : Option ℕ}
    (hlead : up deg ≠ 0) (h0 : up 0 ≠ 0) (h : sideRecs fuel up deg = .done s out ret) :
    Sep (rp up deg) (Set.Ioi 0) (out.map (scCell (if 0 < deg then boundRoots up deg else 0))) := by
  unfold sideRecs at h
  split at h
  · rename_i hd
    rw [if_pos hd]
    exact side_spec hlead h0 h
  · rename_i hd
    have hd : deg = 0 := by omega
    subst hd
    cases h
    refine ⟨isolates_nil fun x _ h1 => ?_, rp up 0, by simp [exCells], by simp⟩
    have := rp_eval_zero up 0
    rw [one_mul] at this
    apply h0
    have h2 : (rp up 0).eval x = up 0 := by rw [rp_eval, aeval_toPoly]; simp
    rw [h2] at h1
    exact_mod_cast h1

theorem rp_neg (up : ℕ → ℤ) (deg : ℕ) :
    rp (fun i => if i % 2 = 1 then -up i else up i) deg = (rp up deg).comp (-X) := by
  refine Polynomial.funext fun x => ?_
  rw [eval_comp, rp_eval, rp_eval, aeval_toPoly, aeval_toPoly]
  refine Finset.sum_congr rfl fun i _ => ?_
  simp only [eval_neg, eval_X]
  split
  · rename_i h
    rw [(Nat.odd_iff.mpr h).neg_pow]; push_cast; ring
  · rename_i h
    rw [(Nat.even_iff.mpr (by omega)).neg_pow]

theorem rp_shift {up : ℕ → ℤ} {deg : ℕ} (h0 : up 0 = 0) (hd : 1 ≤ deg) :
    rp up deg = X * rp (fun i => up (1 + i)) (deg - 1) := by
  refine Polynomial.funext fun x => ?_
  rw [eval_mul, eval_X, rp_eval, rp_eval, aeval_toPoly, aeval_toPoly, Finset.sum_range_succ', h0,
    show deg - 1 + 1 = deg by omega, Finset.mul_sum]
  simp only [Int.cast_zero, zero_mul, add_zero]
  refine Finset.sum_congr rfl fun i _ => ?_
  rw [pow_succ, add_comm 1 i]; ring

/-- Correctness of `bisection_Uspensky`, for runs that end. -/
theorem uspensky_spec {fuel : ℕ} {up0 : ℕ → ℤ} {deg0 : ℕ} {roots : List Ival} {nbpos nbneg : ℕ}
    (hd : 1 ≤ deg0) (hlead : up0 deg0 ≠ 0) (h : uspensky fuel up0 deg0 = .done roots nbpos nbneg) :
    Sep (rp up0 deg0) Set.univ (roots.map icell) ∧ nbneg + nbpos = roots.length ∧
      (∀ r ∈ roots.take nbneg, (icell r).set ⊆ Set.Iio 0) ∧
      (∀ r ∈ roots.drop nbneg, (icell r).set ⊆ Set.Ici 0) := by
  unfold uspensky at h
  split at h
  · cases h
  · rename_i hz
    extract_lets zero deg up upn bpos bneg at h
    have hlead' : up deg ≠ 0 := by
      simp only [up, deg]
      split
      · beta_reduce; rw [show 1 + (deg0 - 1) = deg0 by omega]; exact hlead
      · exact hlead
    have h00 : up 0 ≠ 0 := by
      simp only [up]
      split
      · rename_i h0
        exact fun h1 => hz ⟨h0, h1⟩
      · assumption
    have hleadn : upn deg ≠ 0 := by
      simp only [upn]
      split
      · exact neg_ne_zero.mpr hlead'
      · exact hlead'
    have h00n : upn 0 ≠ 0 := by simpa [upn] using h00
    have hP : rp up0 deg0 = (if (decide (up0 0 = 0)) = true then X else 1) * rp up deg := by
      simp only [up, deg, decide_eq_true_eq]
      split
      · rename_i h0
        exact rp_shift h0 hd
      · rw [one_mul]
    split at h <;> try cases h
    rename_i sp outp retp hsp
    split at h <;> try cases h
    rename_i sn outn retn hsn
    have hp := sideRecs_spec hlead' h00 hsp
    have hn := sideRecs_spec hleadn h00n hsn
    rw [show rp upn deg = (rp up deg).comp (-X) from rp_neg up deg] at hn
    have hp := sep_congr (g' := fun r => icell (merge bpos 0 false r.c r.k r.exact))
      (fun r _ => merge_pos bpos 0 r) hp
    have hn := sep_neg (g' := fun r => icell (merge bpos bneg true r.c r.k r.exact))
      (fun r _ => merge_neg bpos bneg r) hn
    have hP0 : (rp up deg).eval 0 ≠ 0 := by
      have := rp_eval_zero up deg
      rw [one_mul] at this
      rw [← this]
      exact_mod_cast h00
    have hzero : zero.map icell = if (decide (up0 0 = 0)) = true then [⟨0, 1, true⟩] else [] := by
      simp only [zero, decide_eq_true_eq]
      split
      · simp [icell, merge]
      · rfl
    have hj := sep_join (hz := 1) hP hP0 hn hp
    · rw [← hzero] at hj
      refine ⟨?_, by simp [add_comm], ?_, ?_⟩
      · convert hj using 1
        simp [Function.comp_def]
      · intro r hr
        rw [List.take_left' (by simp)] at hr
        have := hn.iso.sub (icell r)
        apply this
        simp only [List.mem_reverse, List.mem_map] at hr ⊢
        obtain ⟨a, ha, rfl⟩ := hr
        exact ⟨a, ha, rfl⟩
      · intro r hr
        rw [List.drop_left' (by simp)] at hr
        rcases List.mem_append.mp hr with hr | hr
        · simp only [zero] at hr
          split at hr
          · rw [List.mem_singleton.mp hr]
            simp [icell, merge, Cell.set]
          · cases hr
        · refine fun x hx => Set.Ioi_subset_Ici_self (hp.iso.sub (icell r) ?_ hx)
          obtain ⟨a, ha, rfl⟩ := List.mem_map.mp hr
          exact List.mem_map.mpr ⟨a, ha, rfl⟩

end Verif.UIsolate
