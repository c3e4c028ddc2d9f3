import Mathlib.Algebra.Polynomial.FieldDivision
import Mathlib.RingTheory.Coprime.Basic
import Mathlib.Tactic.LinearCombination
import Mathlib.Tactic.Linarith

/-! Model of `nmod_em_gcd`, src/fglm/berlekamp_massey.c 188-311.  The same steps are taken by
`nmod_berlekamp_massey_reduce_modif` (430-579) and by FLINT's `nmod_berlekamp_massey_reduce`, which
`compute_elim_poly` (fglm_core.c 857-864) calls.

The operations on `nmod_poly_t` are FLINT's; they stand for the operations of the polynomial ring over the
prime field.  Everything holds over any field `K`. -/

namespace Verif.BM

open Polynomial

variable {K : Type*} [Field K]

/-- `nmod_poly_degree`: -1 for zero. -/
noncomputable def dg (f : K[X]) : Int := by
  classical exact if f = 0 then -1 else (f.natDegree : Int)

theorem dg_zero : dg (0 : K[X]) = -1 := by simp [dg]

theorem dg_of_ne {f : K[X]} (h : f ≠ 0) : dg f = f.natDegree := by simp [dg, h]

theorem dg_ge (f : K[X]) : -1 ≤ dg f := by
  unfold dg
  split_ifs <;> omega

/-- The polynomials of `nmod_berlekamp_massey_t`. -/
structure St (K : Type*) [Field K] where
  R0 : K[X]
  R1 : K[X]
  V0 : K[X]
  V1 : K[X]

/-- `nmod_berlekamp_massey_init_modif`, berlekamp_massey.c 82-98. -/
noncomputable def St.init : St K := ⟨1, 0, 0, 1⟩

/-- The queue of points in reversed order, berlekamp_massey.c 194-199: the first point gets the highest
power. -/
noncomputable def rev (pts : List K) : K[X] :=
  ∑ i ∈ Finset.range pts.length, C (pts.getD i 0) * X ^ (pts.length - i - 1)

/-- The points enter the remainders, berlekamp_massey.c 204-212. -/
noncomputable def St.feed (s : St K) (pts : List K) : St K :=
  { s with
    R0 := s.R0 * X ^ pts.length + s.V0 * rev pts
    R1 := s.R1 * X ^ pts.length + s.V1 * rev pts }

/-- One iteration of Euclid's algorithm, berlekamp_massey.c 221-227. -/
noncomputable def St.euclid (s : St K) : St K :=
  { R0 := s.R1, R1 := s.R0 % s.R1, V0 := s.V1, V1 := s.V0 - s.R0 / s.R1 * s.V1 }

theorem natDegree_mod_lt' (f : K[X]) {g : K[X]} (hg : g ≠ 0) (h : f % g ≠ 0) : (f % g).natDegree < g.natDegree := by
  have := degree_mod_lt f hg
  exact natDegree_lt_natDegree h this

/-- The loop berlekamp_massey.c 241-250, for `n` points.  For `n > 0` the condition implies that `R1` is not
zero; the loop is only reached in this case. -/
noncomputable def St.loop (n : Nat) (s : St K) : St K := by
  classical exact if h : s.R1 ≠ 0 ∧ (n : Int) ≤ 2 * dg s.R1 then St.loop n s.euclid else s
termination_by (dg s.R1 + 1).toNat
decreasing_by
  have h0 := dg_of_ne h.1
  have : dg s.euclid.R1 < dg s.R1 := by
    show dg (s.R0 % s.R1) < _
    by_cases hz : s.R0 % s.R1 = 0
    · rw [hz, dg_zero, h0]; omega
    · rw [dg_of_ne hz, h0]
      have := natDegree_mod_lt' s.R0 h.1 hz
      omega
  have := dg_ge s.euclid.R1
  omega

/-- Result of FLINT's `nmod_poly_hgcd`: the matrix and its determinant (`true`: 1, `false`: -1). -/
structure HM (K : Type*) [Field K] where
  m11 : K[X]
  m12 : K[X]
  m21 : K[X]
  m22 : K[X]
  pos : Bool

/-- The sign as a factor. -/
noncomputable def HM.sg (M : HM K) : K[X] := if M.pos then 1 else -1

theorem HM.sg_sq (M : HM K) : M.sg * M.sg = 1 := by
  unfold HM.sg
  split_ifs <;> ring

/-- What is assumed of FLINT's half gcd, called with polynomials of decreasing degrees: the matrix
transforms a pair of remainders on both sides of half the degree into the arguments.  (FLINT's
documentation asks for a second argument that is not zero.  `nmod_em_gcd` does not ensure this; it is assumed
that the identity is returned then.  `hgcd_exists` shows that the assumptions are consistent.) -/
def HgcdOk (hg : K[X] → K[X] → HM K) : Prop :=
  ∀ a b : K[X], a ≠ 0 → dg b < dg a → ∃ A B : K[X], A ≠ 0 ∧
    a = (hg a b).m11 * A + (hg a b).m12 * B ∧ b = (hg a b).m21 * A + (hg a b).m22 * B ∧
    (hg a b).m11 * (hg a b).m22 - (hg a b).m12 * (hg a b).m21 = (hg a b).sg ∧
    dg a ≤ 2 * dg A ∧ 2 * dg B < dg a ∧
    (hg a b).m11 ≠ 0 ∧ dg (hg a b).m11 + dg A = dg a ∧ dg (hg a b).m12 ≤ dg (hg a b).m11 ∧
    dg (hg a b).m21 ≤ dg (hg a b).m11 ∧ dg (hg a b).m22 ≤ dg (hg a b).m11

/-- Multiplication by the inverse matrix, berlekamp_massey.c 266-292. -/
noncomputable def St.apply (s : St K) (M : HM K) : St K :=
  { V0 := if M.pos then M.m22 * s.V0 - M.m12 * s.V1 else M.m12 * s.V1 - M.m22 * s.V0
    V1 := if M.pos then M.m11 * s.V1 - M.m21 * s.V0 else M.m21 * s.V0 - M.m11 * s.V1
    R0 := if M.pos then M.m22 * s.R0 - M.m12 * s.R1 else M.m12 * s.R1 - M.m22 * s.R0
    R1 := if M.pos then M.m11 * s.R1 - M.m21 * s.R0 else M.m21 * s.R0 - M.m11 * s.R1 }

/-- The part berlekamp_massey.c 229-301 after the first iteration. -/
noncomputable def St.finish (hg : K[X] → K[X] → HM K) (n : Nat) (s : St K) : St K :=
  let l := dg s.R0
  let k := n - l
  if l - k < 10 then s.loop n
  else s.apply (hg (s.R0 /ₘ X ^ k.toNat) (s.R1 /ₘ X ^ k.toNat))

/-- `nmod_em_gcd`, berlekamp_massey.c 188-311, with `m` points already entered. -/
noncomputable def emgcd (hg : K[X] → K[X] → HM K) (s : St K) (m : Nat) (pts : List K) : St K :=
  let n := m + pts.length
  let s := s.feed pts
  if 2 * dg s.R1 < n then s else s.euclid.finish hg n

/-! ### Invariants -/

/-- Degree relation and Bezout coefficients, `S` are the points. -/
structure Inv (n : Nat) (S : K[X]) (s : St K) : Prop where
  bez : ∃ U0 U1 e : K[X], e * e = 1 ∧ U0 * X ^ n + s.V0 * S = s.R0 ∧ U1 * X ^ n + s.V1 * S = s.R1 ∧
    U0 * s.V1 - U1 * s.V0 = e
  r0 : s.R0 ≠ 0
  v1 : s.V1 ≠ 0
  deg : dg s.V1 + dg s.R0 = n
  degV : dg s.V0 ≤ dg s.V1
  degR : dg s.R1 < dg s.R0

theorem dg_mul {f g : K[X]} (hf : f ≠ 0) (hg : g ≠ 0) : dg (f * g) = dg f + dg g := by
  rw [dg_of_ne hf, dg_of_ne hg, dg_of_ne (mul_ne_zero hf hg), natDegree_mul hf hg]
  push_cast
  rfl

theorem dg_lt_iff {f : K[X]} {m : Nat} : dg f < m ↔ f.degree < m := by
  by_cases h : f = 0
  · subst h
    simp only [dg_zero, degree_zero]
    constructor
    · intro _; exact WithBot.bot_lt_coe m
    · intro _; omega
  · rw [dg_of_ne h, degree_eq_natDegree h]
    norm_cast

theorem dg_le_iff {f : K[X]} {m : Nat} : dg f ≤ m ↔ f.degree ≤ m := by
  have h1 : dg f ≤ m ↔ dg f < ((m + 1 : Nat) : Int) := by push_cast; omega
  rw [h1, dg_lt_iff]
  by_cases h : f = 0
  · subst h; simp
  · rw [degree_eq_natDegree h]
    norm_cast
    omega

theorem dg_mul_le (f g : K[X]) {a b : Int} (hf : dg f ≤ a) (hg : dg g ≤ b) (ha : 0 ≤ a) (hb : 0 ≤ b) :
    dg (f * g) ≤ a + b := by
  by_cases h1 : f = 0
  · rw [h1, zero_mul, dg_zero]; omega
  by_cases h2 : g = 0
  · rw [h2, mul_zero, dg_zero]; omega
  rw [dg_mul h1 h2]; omega

theorem dg_mul_lt (f g : K[X]) {a b : Int} (hf : dg f ≤ a) (hg : dg g < b) (ha : 0 ≤ a) (hb : 0 ≤ b) :
    dg (f * g) < a + b := by
  by_cases h1 : f = 0
  · rw [h1, zero_mul, dg_zero]; omega
  by_cases h2 : g = 0
  · rw [h2, mul_zero, dg_zero]; omega
  rw [dg_mul h1 h2]; omega

theorem dg_neg (f : K[X]) : dg (-f) = dg f := by
  by_cases h : f = 0
  · rw [h, neg_zero]
  · rw [dg_of_ne h, dg_of_ne (neg_ne_zero.mpr h), natDegree_neg]

theorem dg_add_le (f g : K[X]) {a : Int} (hf : dg f ≤ a) (hg : dg g ≤ a) : dg (f + g) ≤ a := by
  by_cases h : f + g = 0
  · have := dg_ge f
    rw [h, dg_zero]
    omega
  by_cases h1 : f = 0
  · rw [h1, zero_add]; exact hg
  by_cases h2 : g = 0
  · rw [h2, add_zero]; exact hf
  rw [dg_of_ne h1] at hf
  rw [dg_of_ne h2] at hg
  rw [dg_of_ne h]
  have := natDegree_add_le f g
  omega

theorem dg_sub_le (f g : K[X]) {a : Int} (hf : dg f ≤ a) (hg : dg g ≤ a) : dg (f - g) ≤ a := by
  rw [sub_eq_add_neg]
  exact dg_add_le _ _ hf (by rw [dg_neg]; exact hg)

/-- The summand of higher degree decides. -/
theorem dg_add_eq {f g : K[X]} (h : dg g < dg f) : dg (f + g) = dg f ∧ f + g ≠ 0 := by
  have hf : f ≠ 0 := by
    rintro rfl
    have := dg_ge g
    rw [dg_zero] at h
    omega
  have hlt : g.degree < f.degree := by
    rw [dg_of_ne hf] at h
    rw [degree_eq_natDegree hf]
    exact dg_lt_iff.mp h
  have h1 : (f + g).degree = f.degree := degree_add_eq_left_of_degree_lt hlt
  have h2 : f + g ≠ 0 := by
    rw [← degree_ne_bot, h1, degree_ne_bot]
    exact hf
  refine ⟨?_, h2⟩
  rw [dg_of_ne hf, dg_of_ne h2, natDegree_eq_of_degree_eq h1]

theorem dg_mod_lt (f : K[X]) {g : K[X]} (hg : g ≠ 0) : dg (f % g) < dg g := by
  by_cases h : f % g = 0
  · rw [h, dg_zero, dg_of_ne hg]; omega
  · rw [dg_of_ne h, dg_of_ne hg]
    exact_mod_cast natDegree_mod_lt' f hg h

/-- Degree of the quotient. -/
theorem dg_div {f g : K[X]} (hg : g ≠ 0) (h : dg g ≤ dg f) : f / g ≠ 0 ∧ dg (f / g) + dg g = dg f := by
  have hf : f ≠ 0 := by
    rintro rfl
    rw [dg_zero, dg_of_ne hg] at h
    omega
  have h' : g.natDegree ≤ f.natDegree := by
    rw [dg_of_ne hf, dg_of_ne hg] at h
    exact_mod_cast h
  have hq : f / g ≠ 0 := by
    rw [Ne, Polynomial.div_eq_zero_iff hg, not_lt]
    rw [degree_eq_natDegree hg, degree_eq_natDegree hf]
    exact_mod_cast h'
  refine ⟨hq, ?_⟩
  have hd := degree_add_div hg (by
    rw [degree_eq_natDegree hg, degree_eq_natDegree hf]
    exact_mod_cast h' : g.degree ≤ f.degree)
  rw [degree_eq_natDegree hg, degree_eq_natDegree hf, degree_eq_natDegree hq] at hd
  rw [dg_of_ne hq, dg_of_ne hg, dg_of_ne hf]
  have : g.natDegree + (f / g).natDegree = f.natDegree := by exact_mod_cast hd
  omega

theorem Inv.euclid {n : Nat} {S : K[X]} {s : St K} (h : Inv n S s) (h1 : s.R1 ≠ 0) : Inv n S s.euclid := by
  obtain ⟨U0, U1, e, he, e0, e1, ed⟩ := h.bez
  have hdiv : s.R1 * (s.R0 / s.R1) + s.R0 % s.R1 = s.R0 := EuclideanDomain.div_add_mod _ _
  obtain ⟨hq, hqd⟩ := dg_div h1 h.degR.le
  have hv : dg s.V0 < dg (s.R0 / s.R1 * s.V1) := by
    rw [dg_mul hq h.v1]
    have := h.degV
    have := h.degR
    omega
  have hv' := dg_add_eq (f := -(s.R0 / s.R1 * s.V1)) (g := s.V0) (by rwa [dg_neg])
  rw [dg_neg, dg_mul hq h.v1] at hv'
  have hV1 : s.euclid.V1 = -(s.R0 / s.R1 * s.V1) + s.V0 := by
    show s.V0 - _ = _
    ring
  constructor
  · refine ⟨U1, U0 - s.R0 / s.R1 * U1, -e, by linear_combination he, e1, ?_, ?_⟩
    · show (U0 - s.R0 / s.R1 * U1) * X ^ n + (s.V0 - s.R0 / s.R1 * s.V1) * S = s.R0 % s.R1
      linear_combination e0 - s.R0 / s.R1 * e1 - hdiv
    · show U1 * (s.V0 - s.R0 / s.R1 * s.V1) - (U0 - s.R0 / s.R1 * U1) * s.V1 = -e
      linear_combination -ed
  · exact h1
  · rw [hV1]; exact hv'.2
  · rw [hV1, hv'.1]
    show _ + dg s.R1 = _
    have := h.deg
    omega
  · rw [hV1, hv'.1]
    show dg s.V1 ≤ _
    have := h.degR
    omega
  · exact dg_mod_lt _ h1

/-- What the algorithm ensures in the end. -/
structure Fin (n : Nat) (S : K[X]) (s : St K) : Prop where
  bez : ∃ U0 U1 e : K[X], e * e = 1 ∧ U0 * X ^ n + s.V0 * S = s.R0 ∧ U1 * X ^ n + s.V1 * S = s.R1 ∧
    U0 * s.V1 - U1 * s.V0 = e
  v1 : s.V1 ≠ 0
  degV : 2 * dg s.V1 ≤ n
  degR : 2 * dg s.R1 < n
  degR0 : dg s.R0 + dg s.V1 = n

theorem St.loop_eq (n : Nat) (s : St K) :
    (s.R1 ≠ 0 ∧ (n : Int) ≤ 2 * dg s.R1 → s.loop n = s.euclid.loop n) ∧
    (¬ (s.R1 ≠ 0 ∧ (n : Int) ≤ 2 * dg s.R1) → s.loop n = s) := by
  constructor
  · intro h
    rw [St.loop, dif_pos h]
  · intro h
    rw [St.loop, dif_neg h]

theorem loop_fin {n : Nat} {S : K[X]} (hn : 0 < n) : ∀ (d : Nat) (s : St K), (dg s.R1 + 1).toNat ≤ d → Inv n S s →
    (n : Int) ≤ 2 * dg s.R0 → Fin n S (s.loop n) := by
  intro d
  induction d with
  | zero =>
    intro s hd h h0
    have := dg_ge s.R1
    have hR : s.R1 = 0 := by
      by_contra hne
      rw [dg_of_ne hne] at hd
      omega
    rw [(St.loop_eq n s).2 (by simp [hR])]
    have h1 := h.deg
    exact ⟨h.bez, h.v1, by omega, by rw [hR, dg_zero]; omega, by omega⟩
  | succ d ih =>
    intro s hd h h0
    by_cases hc : s.R1 ≠ 0 ∧ (n : Int) ≤ 2 * dg s.R1
    · rw [(St.loop_eq n s).1 hc]
      apply ih _ _ (h.euclid hc.1) hc.2
      have := dg_mod_lt s.R0 hc.1
      have h2 : dg s.euclid.R1 = dg (s.R0 % s.R1) := rfl
      have h3 := dg_ge s.euclid.R1
      omega
    · rw [(St.loop_eq n s).2 hc]
      have h1 := h.deg
      refine ⟨h.bez, h.v1, by omega, ?_, by omega⟩
      by_cases hR : s.R1 = 0
      · rw [hR, dg_zero]; omega
      · by_contra hlt
        exact hc ⟨hR, by omega⟩

/-! ### The half gcd -/

theorem divX_spec (f : K[X]) (k : Nat) : ∃ lo : K[X], f = f /ₘ X ^ k * X ^ k + lo ∧ dg lo < k := by
  refine ⟨f %ₘ X ^ k, ?_, ?_⟩
  · have := modByMonic_add_div f (X ^ k : K[X])
    linear_combination -this
  · rw [dg_lt_iff]
    have := degree_modByMonic_lt f (monic_X_pow k : (X ^ k : K[X]).Monic)
    rwa [degree_X_pow] at this

theorem dg_X_pow (k : Nat) : dg (X ^ k : K[X]) = k := by
  rw [dg_of_ne (pow_ne_zero _ X_ne_zero), natDegree_X_pow]

theorem apply_eq (s : St K) (M : HM K) : (s.apply M).V0 = M.sg * (M.m22 * s.V0 - M.m12 * s.V1) ∧
    (s.apply M).V1 = M.sg * (M.m11 * s.V1 - M.m21 * s.V0) ∧
    (s.apply M).R0 = M.sg * (M.m22 * s.R0 - M.m12 * s.R1) ∧
    (s.apply M).R1 = M.sg * (M.m11 * s.R1 - M.m21 * s.R0) := by
  unfold St.apply HM.sg
  cases M.pos <;> simp

theorem dg_sg_mul (M : HM K) (f : K[X]) : dg (M.sg * f) = dg f := by
  unfold HM.sg
  split_ifs
  · rw [one_mul]
  · rw [neg_one_mul, dg_neg]

theorem apply_fin {hg : K[X] → K[X] → HM K} (hhg : HgcdOk hg) {n : Nat} {S : K[X]} {s : St K} (h : Inv n S s)
    {k : Nat} (hk : (k : Int) = n - dg s.R0) (hlk : (k : Int) < dg s.R0) :
    Fin n S (s.apply (hg (s.R0 /ₘ X ^ k) (s.R1 /ₘ X ^ k))) := by
  obtain ⟨lo0, e0, h0⟩ := divX_spec s.R0 k
  obtain ⟨lo1, e1, h1⟩ := divX_spec s.R1 k
  generalize ha : s.R0 /ₘ X ^ k = a at *
  generalize hb : s.R1 /ₘ X ^ k = b at *
  have hX := dg_X_pow (K := K) k
  have hXne : (X ^ k : K[X]) ≠ 0 := pow_ne_zero _ X_ne_zero
  have hane : a ≠ 0 := by
    rintro rfl
    rw [zero_mul, zero_add] at e0
    rw [← e0] at h0
    omega
  have hadg : dg a + k = dg s.R0 := by
    have : dg lo0 < dg (a * X ^ k) := by
      rw [dg_mul hane hXne, hX, dg_of_ne hane]
      omega
    have := (dg_add_eq this).1
    rw [← e0, dg_mul hane hXne, hX] at this
    omega
  have hbdg : dg b < dg a := by
    by_cases hbz : b = 0
    · rw [hbz, dg_zero, dg_of_ne hane]; omega
    · have : dg lo1 < dg (b * X ^ k) := by
        rw [dg_mul hbz hXne, hX, dg_of_ne hbz]
        omega
      have := (dg_add_eq this).1
      rw [← e1, dg_mul hbz hXne, hX] at this
      have := h.degR
      omega
  obtain ⟨A, B, hA, hea, heb, hdet, hA2, hB2, hm, hmd, hm12, hm21, hm22⟩ := hhg a b hane hbdg
  generalize hg a b = M at *
  obtain ⟨aV0, aV1, aR0, aR1⟩ := apply_eq s M
  have hsq := M.sg_sq
  have hmnn : 0 ≤ dg M.m11 := by rw [dg_of_ne hm]; omega
  have hAnn : 0 ≤ dg A := by rw [dg_of_ne hA]; omega
  have hV1nn : 0 ≤ dg s.V1 := by rw [dg_of_ne h.v1]; omega
  have hdeg := h.deg
  -- remainders
  have hR0 : (s.apply M).R0 = A * X ^ k + M.sg * (M.m22 * lo0 - M.m12 * lo1) := by
    rw [aR0, e0, e1]
    linear_combination M.sg * M.m22 * X ^ k * hea - M.sg * M.m12 * X ^ k * heb + M.sg * A * X ^ k * hdet + A * X ^ k * hsq
  have hR1 : (s.apply M).R1 = B * X ^ k + M.sg * (M.m11 * lo1 - M.m21 * lo0) := by
    rw [aR1, e0, e1]
    linear_combination -M.sg * M.m21 * X ^ k * hea + M.sg * M.m11 * X ^ k * heb + M.sg * B * X ^ k * hdet + B * X ^ k * hsq
  have hlow0 : dg (M.sg * (M.m22 * lo0 - M.m12 * lo1)) ≤ dg M.m11 + k - 1 := by
    rw [dg_sg_mul]
    apply dg_sub_le
    · have := dg_mul_lt M.m22 lo0 hm22 h0 hmnn (by omega); omega
    · have := dg_mul_lt M.m12 lo1 hm12 h1 hmnn (by omega); omega
  have hlow1 : dg (M.sg * (M.m11 * lo1 - M.m21 * lo0)) ≤ dg M.m11 + k - 1 := by
    rw [dg_sg_mul]
    apply dg_sub_le
    · have := dg_mul_lt M.m11 lo1 le_rfl h1 hmnn (by omega); omega
    · have := dg_mul_lt M.m21 lo0 hm21 h0 hmnn (by omega); omega
  have hAX : dg (A * X ^ k) = dg A + k := by rw [dg_mul hA hXne, hX]
  have hR0d : dg (s.apply M).R0 = dg A + k := by
    rw [hR0, ← hAX]
    exact (dg_add_eq (by omega)).1
  have hR1d : 2 * dg (s.apply M).R1 < n := by
    have hle : dg (s.apply M).R1 ≤ max (dg B + k) (dg M.m11 + k - 1) := by
      rw [hR1]
      apply dg_add_le
      · by_cases hB : B = 0
        · rw [hB, zero_mul, dg_zero]; omega
        · rw [dg_mul hB hXne, hX]; omega
      · omega
    rcases le_total (dg B + k) (dg M.m11 + k - 1) with hc | hc
    · rw [max_eq_right hc] at hle; omega
    · rw [max_eq_left hc] at hle; omega
  have hV1le : dg (s.apply M).V1 ≤ dg M.m11 + dg s.V1 := by
    rw [aV1, dg_sg_mul]
    apply dg_sub_le
    · exact dg_mul_le _ _ le_rfl le_rfl hmnn hV1nn
    · exact dg_mul_le _ _ hm21 h.degV hmnn hV1nn
  have hV0le : dg (s.apply M).V0 ≤ dg M.m11 + dg s.V1 := by
    rw [aV0, dg_sg_mul]
    apply dg_sub_le
    · exact dg_mul_le _ _ hm22 h.degV hmnn hV1nn
    · exact dg_mul_le _ _ hm12 le_rfl hmnn hV1nn
  obtain ⟨U0, U1, e, he, f0, f1, fd⟩ := h.bez
  have hbez : ∃ U0' U1' e' : K[X], e' * e' = 1 ∧ U0' * X ^ n + (s.apply M).V0 * S = (s.apply M).R0 ∧
      U1' * X ^ n + (s.apply M).V1 * S = (s.apply M).R1 ∧ U0' * (s.apply M).V1 - U1' * (s.apply M).V0 = e' := by
    refine ⟨M.sg * (M.m22 * U0 - M.m12 * U1), M.sg * (M.m11 * U1 - M.m21 * U0), e * M.sg, ?_, ?_, ?_, ?_⟩
    · linear_combination hsq * e * e + he
    · rw [aV0, aR0]
      linear_combination M.sg * M.m22 * f0 - M.sg * M.m12 * f1
    · rw [aV1, aR1]
      linear_combination M.sg * M.m11 * f1 - M.sg * M.m21 * f0
    · rw [aV1, aV0]
      linear_combination M.sg * M.sg * (M.m11 * M.m22 - M.m12 * M.m21) * fd + M.sg * M.sg * e * hdet + e * M.sg * hsq
  have hbez' := hbez
  obtain ⟨U0', U1', e', he', g0, g1, gd⟩ := hbez'
  -- V0 R1 - V1 R0 = -e' x^n
  have hprod : (s.apply M).V1 * (s.apply M).R0 = e' * X ^ n + (s.apply M).V0 * (s.apply M).R1 := by
    linear_combination -(s.apply M).V1 * g0 + (s.apply M).V0 * g1 + X ^ n * gd
  have he'ne : e' ≠ 0 := by
    rintro rfl
    simp at he'
  have he'dg : dg e' = 0 := by
    have := dg_mul he'ne he'ne
    rw [he', dg_of_ne one_ne_zero, natDegree_one] at this
    omega
  have hrhs : dg (e' * X ^ n + (s.apply M).V0 * (s.apply M).R1) = n ∧
      e' * X ^ n + (s.apply M).V0 * (s.apply M).R1 ≠ 0 := by
    have hE : dg (e' * X ^ n) = n := by
      rw [dg_mul he'ne (pow_ne_zero _ X_ne_zero), dg_X_pow]; omega
    have := dg_add_eq (f := e' * X ^ n) (g := (s.apply M).V0 * (s.apply M).R1) ?_
    · rw [hE] at this; exact this
    · rw [hE]
      have hV0h : 2 * dg (s.apply M).V0 ≤ n := by omega
      by_cases z1 : (s.apply M).V0 = 0
      · rw [z1, zero_mul, dg_zero]; omega
      by_cases z2 : (s.apply M).R1 = 0
      · rw [z2, mul_zero, dg_zero]; omega
      rw [dg_mul z1 z2]
      omega
  rw [← hprod] at hrhs
  have hVne : (s.apply M).V1 ≠ 0 := left_ne_zero_of_mul hrhs.2
  have hRne : (s.apply M).R0 ≠ 0 := right_ne_zero_of_mul hrhs.2
  refine ⟨hbez, hVne, by omega, hR1d, ?_⟩
  have := hrhs.1
  rw [dg_mul hVne hRne] at this
  omega

theorem rev_dg (pts : List K) : dg (rev pts) < pts.length := by
  rw [dg_lt_iff]
  unfold rev
  refine lt_of_le_of_lt (degree_sum_le _ _) ?_
  rw [Finset.sup_lt_iff (WithBot.bot_lt_coe _)]
  intro i hi
  rw [Finset.mem_range] at hi
  refine lt_of_le_of_lt (degree_C_mul_X_pow_le _ _) ?_
  exact_mod_cast (by omega : pts.length - i - 1 < pts.length)

/-- The result of `nmod_em_gcd`. -/
theorem emgcd_fin {hg : K[X] → K[X] → HM K} (hhg : HgcdOk hg) (pts : List K) :
    Fin pts.length (rev pts) (emgcd hg St.init 0 pts) := by
  have hS := rev_dg pts
  have e0 : (St.init.feed pts : St K) = ⟨X ^ pts.length, rev pts, 0, 1⟩ := by
    simp [St.feed, St.init]
  have h1 : dg (1 : K[X]) = 0 := by rw [dg_of_ne one_ne_zero, natDegree_one]; rfl
  have hinv : Inv pts.length (rev pts) (St.init.feed pts : St K) := by
    rw [e0]
    refine ⟨⟨1, 0, 1, by ring, by ring, by ring, by ring⟩, pow_ne_zero _ X_ne_zero, one_ne_zero, ?_, ?_, ?_⟩
    · show dg 1 + dg (X ^ _) = _
      rw [h1, dg_X_pow]; omega
    · show dg 0 ≤ dg 1
      rw [dg_zero, h1]; omega
    · show dg (rev pts) < dg (X ^ _)
      rw [dg_X_pow]; exact hS
  unfold emgcd
  simp only [Nat.zero_add]
  have hR0 : (St.init.feed pts : St K).R0 = X ^ pts.length := by rw [e0]
  have hR1 : (St.init.feed pts : St K).R1 = rev pts := by rw [e0]
  have hV1 : (St.init.feed pts : St K).V1 = 1 := by rw [e0]
  generalize St.init.feed pts = s at hinv hR0 hR1 hV1
  split_ifs with hlt
  · refine ⟨hinv.bez, hinv.v1, ?_, hlt, by have := hinv.deg; omega⟩
    rw [hV1, h1]
    omega
  · have hne : s.R1 ≠ 0 := by
      intro hz
      rw [hz, dg_zero] at hlt
      omega
    have hn : 0 < pts.length := by
      rw [← hR1] at hS
      rw [dg_of_ne hne] at hS
      omega
    have hi := hinv.euclid hne
    have hd0 : dg s.euclid.R0 = dg s.R1 := rfl
    unfold St.finish
    simp only
    split_ifs with hc
    · exact loop_fin hn _ _ le_rfl hi (by omega)
    · have hk0 : 0 ≤ (pts.length : Int) - dg s.euclid.R0 := by
        rw [hd0, hR1]; omega
      refine apply_fin hhg hi (k := ((pts.length : Int) - dg s.euclid.R0).toNat) ?_ ?_ <;> omega

/-! ### A half gcd exists -/

open Classical in
/-- Euclid's algorithm down to degree `t / 2`. -/
noncomputable def hgo (t : Int) (a b : K[X]) : HM K :=
  if _h : b = 0 ∨ 2 * dg b < t then ⟨1, 0, 0, 1, true⟩
  else
    let M := hgo t b (a % b)
    ⟨a / b * M.m11 + M.m21, a / b * M.m12 + M.m22, M.m11, M.m12, !M.pos⟩
termination_by (dg b + 1).toNat
decreasing_by
  push Not at _h
  have h1 := dg_mod_lt a _h.1
  have := dg_ge (a % b)
  omega

open Classical in
theorem hgo_eq (t : Int) (a b : K[X]) : hgo t a b = if b = 0 ∨ 2 * dg b < t then ⟨1, 0, 0, 1, true⟩
  else ⟨a / b * (hgo t b (a % b)).m11 + (hgo t b (a % b)).m21, a / b * (hgo t b (a % b)).m12 + (hgo t b (a % b)).m22,
    (hgo t b (a % b)).m11, (hgo t b (a % b)).m12, !(hgo t b (a % b)).pos⟩ := by
  rw [hgo]
  split_ifs <;> rfl

theorem hgo_spec (t : Int) (ht : 0 < t) : ∀ (d : Nat) (a b : K[X]), (dg b + 1).toNat ≤ d → a ≠ 0 → dg b < dg a → t ≤ 2 * dg a →
    ∃ A B : K[X], A ≠ 0 ∧
    a = (hgo t a b).m11 * A + (hgo t a b).m12 * B ∧ b = (hgo t a b).m21 * A + (hgo t a b).m22 * B ∧
    (hgo t a b).m11 * (hgo t a b).m22 - (hgo t a b).m12 * (hgo t a b).m21 = (hgo t a b).sg ∧
    t ≤ 2 * dg A ∧ 2 * dg B < t ∧
    (hgo t a b).m11 ≠ 0 ∧ dg (hgo t a b).m11 + dg A = dg a ∧ dg (hgo t a b).m12 ≤ dg (hgo t a b).m11 ∧
    dg (hgo t a b).m21 ≤ dg (hgo t a b).m11 ∧ dg (hgo t a b).m22 ≤ dg (hgo t a b).m11 := by
  intro d
  have h1 : dg (1 : K[X]) = 0 := by rw [dg_of_ne one_ne_zero, natDegree_one]; rfl
  induction d with
  | zero =>
    intro a b hd ha hba hta
    have hb : b = 0 := by
      by_contra hne
      rw [dg_of_ne hne] at hd
      omega
    rw [hgo_eq, if_pos (Or.inl hb)]
    refine ⟨a, b, ha, by ring, by ring, by simp [HM.sg], hta, by rw [hb, dg_zero]; omega, one_ne_zero, by rw [h1]; omega,
      by rw [dg_zero, h1]; omega, by rw [dg_zero, h1]; omega, le_rfl⟩
  | succ d ih =>
    intro a b hd ha hba hta
    rw [hgo_eq]
    split_ifs with hc
    · refine ⟨a, b, ha, by ring, by ring, by simp [HM.sg], hta, ?_, one_ne_zero, by rw [h1]; omega,
        by rw [dg_zero, h1]; omega, by rw [dg_zero, h1]; omega, le_rfl⟩
      rcases hc with hb | hb
      · rw [hb, dg_zero]; omega
      · exact hb
    · push Not at hc
      have hlt := dg_mod_lt a hc.1
      have hge := dg_ge (a % b)
      obtain ⟨A, B, hA, hea, heb, hdet, hA2, hB2, hm, hmd, hm12, hm21, hm22⟩ :=
        ih b (a % b) (by omega) hc.1 hlt hc.2
      generalize hgo t b (a % b) = M at *
      obtain ⟨hq, hqd⟩ := dg_div hc.1 hba.le
      have hdiv : b * (a / b) + a % b = a := EuclideanDomain.div_add_mod _ _
      have hmnn : 0 ≤ dg M.m11 := by rw [dg_of_ne hm]; omega
      have hqm : dg (a / b * M.m11) = dg (a / b) + dg M.m11 := dg_mul hq hm
      have hadd := dg_add_eq (f := a / b * M.m11) (g := M.m21) (by omega)
      refine ⟨A, B, hA, ?_, hea, ?_, hA2, hB2, hadd.2, ?_, ?_, ?_, ?_⟩
      · show a = (a / b * M.m11 + M.m21) * A + (a / b * M.m12 + M.m22) * B
        linear_combination -hdiv + a / b * hea + heb
      · show (a / b * M.m11 + M.m21) * M.m12 - (a / b * M.m12 + M.m22) * M.m11 = _
        have : (⟨a / b * M.m11 + M.m21, a / b * M.m12 + M.m22, M.m11, M.m12, !M.pos⟩ : HM K).sg = -M.sg := by
          unfold HM.sg
          cases M.pos <;> simp
        rw [this]
        linear_combination -hdet
      · show dg (a / b * M.m11 + M.m21) + dg A = dg a
        rw [hadd.1]; omega
      · show dg (a / b * M.m12 + M.m22) ≤ dg (a / b * M.m11 + M.m21)
        rw [hadd.1]
        apply dg_add_le
        · rw [hqm]
          exact dg_mul_le _ _ le_rfl hm12 (by omega) hmnn
        · omega
      · show dg M.m11 ≤ dg (a / b * M.m11 + M.m21)
        rw [hadd.1]; omega
      · show dg M.m12 ≤ dg (a / b * M.m11 + M.m21)
        rw [hadd.1]; omega

/-- The assumptions on the half gcd are consistent. -/
theorem hgcd_exists : ∃ hg : K[X] → K[X] → HM K, HgcdOk hg := by
  classical
  refine ⟨fun a b => if dg a = 0 then ⟨1, 0, 0, 1, true⟩ else hgo (dg a) a b, ?_⟩
  intro a b ha hba
  have h1 : dg (1 : K[X]) = 0 := by rw [dg_of_ne one_ne_zero, natDegree_one]; rfl
  have hann : 0 ≤ dg a := by rw [dg_of_ne ha]; omega
  beta_reduce
  split_ifs with h0
  · refine ⟨a, b, ha, by ring, by ring, by simp [HM.sg], by omega, by omega, one_ne_zero, by rw [h1]; omega,
      by rw [dg_zero, h1]; omega, by rw [dg_zero, h1]; omega, le_rfl⟩
  · exact hgo_spec (dg a) (by omega) _ a b le_rfl ha hba (by omega)

end Verif.BM
