import Verif.BM
import Verif.Spec.LinRec
import Mathlib.Algebra.Polynomial.AlgebraMap
import Mathlib.Algebra.Squarefree.Basic
import Mathlib.RingTheory.Coprime.Lemmas

/-! The result of the Berlekamp-Massey algorithm is the minimal polynomial of the sequence. -/

namespace Verif.BM

open Polynomial Verif.Spec

variable {K : Type*} [Field K]

/-- Shift of sequences. -/
def shift : Module.End K (ℕ → K) where
  toFun a i := a (i + 1)
  map_add' _ _ := rfl
  map_smul' _ _ := rfl

theorem shift_pow (j : ℕ) (a : ℕ → K) (i : ℕ) : (shift ^ j : Module.End K (ℕ → K)) a i = a (i + j) := by
  induction j generalizing a with
  | zero => rfl
  | succ j ih =>
    rw [pow_succ, Module.End.mul_apply, ih]
    show a (i + j + 1) = _
    rw [Nat.add_assoc]

/-- The action of polynomials on sequences. -/
noncomputable def act (f : K[X]) : Module.End K (ℕ → K) := aeval shift f

theorem act_mul (f g : K[X]) (a : ℕ → K) : act (f * g) a = act f (act g a) := by
  rw [act, map_mul]; rfl

theorem act_add (f g : K[X]) (a : ℕ → K) : act (f + g) a = act f a + act g a := by
  rw [act, map_add]; rfl

theorem act_apply (f : K[X]) (a : ℕ → K) (i : ℕ) {N : ℕ} (hN : f.natDegree < N) :
    act f a i = ∑ j ∈ Finset.range N, f.coeff j * a (i + j) := by
  rw [act, aeval_eq_sum_range' hN, LinearMap.sum_apply, Finset.sum_apply]
  refine Finset.sum_congr rfl fun j _ => ?_
  rw [LinearMap.smul_apply, Pi.smul_apply, shift_pow, smul_eq_mul]

theorem annihilates_iff (f : K[X]) (a : ℕ → K) : Annihilates f a ↔ act f a = 0 := by
  constructor
  · intro h
    funext i
    rw [act_apply f a i (Nat.lt_succ_self _)]
    exact h i
  · intro h i
    rw [← act_apply f a i (Nat.lt_succ_self _), h]
    rfl

/-- A sequence killed by a polynomial of degree `d` that starts with `d` zeros is zero. -/
theorem act_zero_of_start {q : K[X]} (hq : q ≠ 0) {b : ℕ → K} (hb : act q b = 0) (h0 : ∀ i, i < q.natDegree → b i = 0) :
    b = 0 := by
  funext i
  induction i using Nat.strong_induction_on with
  | _ i ih =>
    by_cases hi : i < q.natDegree
    · exact h0 i hi
    · have h := congrFun hb (i - q.natDegree)
      rw [act_apply q b _ (Nat.lt_succ_self _), Finset.sum_range_succ, Finset.sum_eq_zero, zero_add] at h
      · rw [show i - q.natDegree + q.natDegree = i by omega] at h
        have hl : q.coeff q.natDegree ≠ 0 := leadingCoeff_ne_zero.mpr hq
        exact (mul_eq_zero.mp h).resolve_left hl
      · intro j hj
        rw [Finset.mem_range] at hj
        rw [ih _ (by omega)]
        exact mul_zero _

theorem rev_coeff (pts : List K) (m : ℕ) (hm : m < pts.length) : (rev pts).coeff m = pts.getD (pts.length - 1 - m) 0 := by
  unfold rev
  rw [finsetSum_coeff, Finset.sum_eq_single (pts.length - 1 - m)]
  · rw [coeff_C_mul, coeff_X_pow, if_pos (by omega), mul_one]
  · intro i hi hne
    rw [Finset.mem_range] at hi
    rw [coeff_C_mul, coeff_X_pow, if_neg (by omega), mul_zero]
  · intro h
    exact absurd (Finset.mem_range.mpr (by omega)) h

/-- Coefficients of `f * S` are terms of the sequence `f` acts on. -/
theorem mul_rev_coeff (f : K[X]) (pts : List K) (a : ℕ → K) (ha : ∀ i, i < pts.length → pts.getD i 0 = a i) (i : ℕ)
    (hi : i + f.natDegree < pts.length) : (f * rev pts).coeff (pts.length - 1 - i) = act f a i := by
  rw [act_apply f a i (Nat.lt_succ_self _), coeff_mul, Finset.Nat.sum_antidiagonal_eq_sum_range_succ
    (fun j k => f.coeff j * (rev pts).coeff k)]
  have hsub : Finset.range (f.natDegree + 1) ⊆ Finset.range (pts.length - 1 - i + 1) := by
    intro j hj
    rw [Finset.mem_range] at *
    omega
  rw [← Finset.sum_subset hsub]
  · refine Finset.sum_congr rfl fun j hj => ?_
    rw [Finset.mem_range] at hj
    rw [rev_coeff _ _ (by omega), show pts.length - 1 - (pts.length - 1 - i - j) = i + j by omega, ha _ (by omega)]
  · intro j _ hj
    rw [Finset.mem_range] at hj
    rw [coeff_eq_zero_of_natDegree_lt (by omega), zero_mul]

theorem sequence_min {n : ℕ} {s : St K} {pts : List K} (hl : pts.length = n) (h : Fin n (rev pts) s) {a : ℕ → K}
    (ha : ∀ i, i < pts.length → pts.getD i 0 = a i) {f : K[X]} (hf : f ≠ 0) (hfa : Annihilates f a)
    (hfd : 2 * f.natDegree ≤ n) : Annihilates s.V1 a ∧ s.V1 ∣ f := by
  subst hl
  rw [annihilates_iff] at *
  obtain ⟨U0, U1, e, he, e0, e1, ed⟩ := h.bez
  -- remainder of f * S
  set P := f * rev pts with hP
  set r := P %ₘ X ^ pts.length with hr
  set g := P /ₘ X ^ pts.length with hg
  have hPg : r + X ^ pts.length * g = P := modByMonic_add_div _ _
  have hrn : dg r < pts.length := by
    rw [dg_lt_iff]
    have := degree_modByMonic_lt P (monic_X_pow pts.length : (X ^ pts.length : K[X]).Monic)
    rwa [degree_X_pow] at this
  have hrc : ∀ m, m < pts.length → r.coeff m = P.coeff m := by
    intro m hm
    rw [← hPg, coeff_add, coeff_X_pow_mul', if_neg (by omega), add_zero]
  have hrd : dg r < f.natDegree := by
    rw [dg_lt_iff, degree_lt_iff_coeff_zero]
    intro m hm
    by_cases hmn : m < pts.length
    · rw [hrc m hmn, hP]
      have := mul_rev_coeff f pts a ha (pts.length - 1 - m) (by omega)
      rw [show pts.length - 1 - (pts.length - 1 - m) = m by omega, hfa] at this
      exact this
    · have h1 := dg_lt_iff.mp hrn
      rw [degree_lt_iff_coeff_zero] at h1
      exact h1 m (by omega)
  have hfdg := dg_of_ne hf
  have hkey : f * s.R1 - s.V1 * r = X ^ pts.length * (f * U1 + s.V1 * g) := by
    linear_combination -f * e1 - s.V1 * hPg + s.V1 * hP
  have hdL : dg (f * s.R1 - s.V1 * r) < pts.length := by
    have h1 : dg (f * s.R1) ≤ pts.length - 1 := by
      by_cases hz : s.R1 = 0
      · have := h.degR
        rw [hz, mul_zero, dg_zero]
        omega
      · rw [dg_mul hf hz]
        have := h.degR
        omega
    have h2 : dg (s.V1 * r) ≤ pts.length - 1 := by
      by_cases hz : r = 0
      · rw [hz, mul_zero, dg_zero]
        omega
      · rw [dg_mul h.v1 hz]
        have := h.degV
        omega
    have := dg_sub_le _ _ h1 h2
    omega
  have hzero : f * U1 + s.V1 * g = 0 := by
    by_contra hne
    rw [hkey, dg_mul (pow_ne_zero _ X_ne_zero) hne, dg_X_pow, dg_of_ne hne] at hdL
    omega
  have hL : f * s.R1 = s.V1 * r := by
    rw [hzero, mul_zero, sub_eq_zero] at hkey
    exact hkey
  have hcop : IsCoprime s.V1 U1 := ⟨e * U0, -(e * s.V0), by linear_combination e * ed + he⟩
  have hdvd : s.V1 ∣ f := by
    apply hcop.dvd_of_dvd_mul_right
    exact ⟨-g, by linear_combination hzero⟩
  refine ⟨?_, hdvd⟩
  obtain ⟨q, hq⟩ := hdvd
  have hqne : q ≠ 0 := by
    rintro rfl
    exact hf (by rw [hq, mul_zero])
  have hrq : r = q * s.R1 := by
    apply mul_left_cancel₀ h.v1
    rw [← hL, hq]
    ring
  have hdq : (f.natDegree : Int) = dg s.V1 + dg q := by
    rw [← hfdg, hq, dg_mul h.v1 hqne]
  have hR1 : dg s.R1 < dg s.V1 := by
    by_cases hz : s.R1 = 0
    · rw [hz, dg_zero, dg_of_ne h.v1]
      omega
    · rw [hrq, dg_mul hqne hz] at hrd
      omega
  have hv := dg_of_ne h.v1
  have hqd := dg_of_ne hqne
  -- the first terms vanish
  have hstart : ∀ i, i + s.V1.natDegree < pts.length → act s.V1 a i = 0 := by
    intro i hi
    rw [← mul_rev_coeff s.V1 pts a ha i hi]
    have he : s.V1 * rev pts = s.R1 - X ^ pts.length * U1 := by linear_combination e1
    rw [he, coeff_sub, coeff_X_pow_mul', if_neg (by omega), sub_zero]
    rw [hv, dg_lt_iff, degree_lt_iff_coeff_zero] at hR1
    exact hR1 _ (by omega)
  apply act_zero_of_start hqne
  · rw [← act_mul, mul_comm, ← hq]
    exact hfa
  · intro i hi
    exact hstart i (by omega)

/-- `compute_elim_poly`, fglm_core.c 857-864: the first `2 * D` points, made monic. -/
noncomputable def elimPoly (hg : K[X] → K[X] → HM K) (pts : List K) (D : ℕ) : K[X] :=
  let V := (emgcd hg St.init 0 (pts.take (2 * D))).V1
  C V.leadingCoeff⁻¹ * V

theorem annihilates_smul {c : K} (hc : c ≠ 0) {f : K[X]} {a : ℕ → K} : Annihilates (C c * f) a ↔ Annihilates f a := by
  rw [annihilates_iff, annihilates_iff, act_mul]
  have : ∀ b : ℕ → K, act (C c) b = c • b := by
    intro b
    rw [act, aeval_C]
    rfl
  rw [this, smul_eq_zero]
  simp [hc]

theorem elimPoly_min {hg : K[X] → K[X] → HM K} (hhg : HgcdOk hg) {pts : List K} {D : ℕ} (hl : 2 * D ≤ pts.length)
    {a : ℕ → K} (ha : ∀ i, i < 2 * D → pts.getD i 0 = a i) (hf : ∃ f : K[X], f ≠ 0 ∧ f.natDegree ≤ D ∧ Annihilates f a) :
    IsMinPoly (elimPoly hg pts D) a ∧ (elimPoly hg pts D).natDegree ≤ D := by
  have hlen : (pts.take (2 * D)).length = 2 * D := by rw [List.length_take]; omega
  have hfin := emgcd_fin hhg (pts.take (2 * D))
  have ha' : ∀ i, i < (pts.take (2 * D)).length → (pts.take (2 * D)).getD i 0 = a i := by
    intro i hi
    rw [hlen] at hi
    rw [← ha i hi, List.getD_eq_getElem?_getD, List.getD_eq_getElem?_getD, List.getElem?_take_of_lt hi]
  unfold elimPoly
  simp only
  rw [hlen] at hfin
  set s := emgcd hg St.init 0 (pts.take (2 * D))
  have hlc : s.V1.leadingCoeff⁻¹ ≠ 0 := inv_ne_zero (leadingCoeff_ne_zero.mpr hfin.v1)
  obtain ⟨f, hf0, hfd, hfa⟩ := hf
  have hann := (sequence_min hlen hfin ha' hf0 hfa (by omega)).1
  have hvd := dg_of_ne hfin.v1
  have hVd := hfin.degV
  refine ⟨⟨?_, (annihilates_smul hlc).mpr hann, ?_⟩, ?_⟩
  · rw [mul_comm]
    exact monic_mul_leadingCoeff_inv hfin.v1
  · intro g hg
    have hdvd : s.V1 ∣ g := by
      -- the remainder of g has small degree
      have hrem : Annihilates (g % s.V1) a := by
        rw [annihilates_iff] at *
        have hdiv : s.V1 * (g / s.V1) + g % s.V1 = g := EuclideanDomain.div_add_mod _ _
        have h1 := act_add (s.V1 * (g / s.V1)) (g % s.V1) a
        rw [hdiv, hg, mul_comm, act_mul, hann, map_zero, zero_add] at h1
        exact h1.symm
      by_cases hz : g % s.V1 = 0
      · exact EuclideanDomain.mod_eq_zero.mp hz
      · exfalso
        have hlt := natDegree_mod_lt' g hfin.v1 hz
        have := (sequence_min hlen hfin ha' hz hrem (by omega)).2
        have := natDegree_le_of_dvd this hz
        omega
    rw [mul_comm]
    have hu : IsUnit (C s.V1.leadingCoeff⁻¹ : K[X]) := isUnit_C.mpr (isUnit_iff_ne_zero.mpr hlc)
    exact (hu.mul_right_dvd).mpr hdvd
  · rw [natDegree_C_mul hlc]
    omega

/-- The polynomial of `compute_minpoly`, fglm_core.c 934-953, before the square-free part is taken: a constant
is replaced by `x`. -/
noncomputable def minPoly (hg : K[X] → K[X] → HM K) (pts : List K) (D : ℕ) : K[X] :=
  let V := elimPoly hg pts D
  if V.natDegree = 0 then X else V

/-- What is assumed of FLINT's `nmod_poly_factor_squarefree` for a monic polynomial: pairwise coprime monic
square-free factors with exponents whose product is the polynomial. -/
structure SqfOk (V : K[X]) (l : List (K[X] × ℕ)) : Prop where
  prod : (l.map fun q => q.1 ^ q.2).prod = V
  pos : ∀ q ∈ l, 0 < q.2
  monic : ∀ q ∈ l, q.1.Monic
  sqf : ∀ q ∈ l, Squarefree q.1
  coprime : l.Pairwise fun q r => IsCoprime q.1 r.1

/-- `make_square_free_elim_poly`, fglm_core.c 867-904: the eliminating polynomial.  `sqf` is the result of
`nmod_poly_factor_squarefree`; `nmod_poly_is_squarefree` decides `Squarefree`. -/
noncomputable def sqfPart (V : K[X]) (dimquot : ℕ) (sqf : List (K[X] × ℕ)) : K[X] := by
  classical exact if Squarefree V ∧ V.natDegree = dimquot then V else (sqf.map Prod.fst).prod

theorem isCoprime_list_prod {f : K[X]} {l : List K[X]} (h : ∀ g ∈ l, IsCoprime f g) : IsCoprime f l.prod := by
  induction l with
  | nil => exact isCoprime_one_right
  | cons g l ih =>
    rw [List.prod_cons]
    exact (h g (by simp)).mul_right (ih fun g' hg' => h g' (by simp [hg']))

theorem squarefree_list_prod {l : List K[X]} (h : ∀ g ∈ l, Squarefree g) (hc : l.Pairwise IsCoprime) :
    Squarefree l.prod := by
  induction l with
  | nil => exact squarefree_one
  | cons g l ih =>
    rw [List.pairwise_cons] at hc
    rw [List.prod_cons]
    exact (squarefree_mul_iff.mpr
      ⟨(isCoprime_list_prod hc.1).isRelPrime, h g (by simp), ih (fun g' hg' => h g' (by simp [hg'])) hc.2⟩)

theorem monic_list_prod {l : List K[X]} (h : ∀ g ∈ l, g.Monic) : l.prod.Monic := by
  induction l with
  | nil => exact monic_one
  | cons g l ih =>
    rw [List.prod_cons]
    exact (h g (by simp)).mul (ih fun g' hg' => h g' (by simp [hg']))

theorem prod_dvd_powers {l : List (K[X] × ℕ)} (h : ∀ q ∈ l, 0 < q.2) :
    (l.map Prod.fst).prod ∣ (l.map fun q => q.1 ^ q.2).prod := by
  induction l with
  | nil => simp
  | cons q l ih =>
    simp only [List.map_cons, List.prod_cons]
    exact mul_dvd_mul (dvd_pow_self _ (Nat.ne_of_gt (h q (by simp)))) (ih fun r hr => h r (by simp [hr]))

theorem powers_dvd_pow {l : List (K[X] × ℕ)} :
    ∃ N, (l.map fun q => q.1 ^ q.2).prod ∣ (l.map Prod.fst).prod ^ N := by
  induction l with
  | nil => exact ⟨0, by simp⟩
  | cons q l ih =>
    obtain ⟨N, hN⟩ := ih
    refine ⟨max q.2 N, ?_⟩
    simp only [List.map_cons, List.prod_cons]
    rw [mul_pow]
    exact mul_dvd_mul (pow_dvd_pow _ (le_max_left _ _)) (hN.trans (pow_dvd_pow _ (le_max_right _ _)))

theorem sqfPart_spec {V : K[X]} {l : List (K[X] × ℕ)} (hV : V.Monic) (hl : SqfOk V l) (D : ℕ) :
    (sqfPart V D l).Monic ∧ Squarefree (sqfPart V D l) ∧ sqfPart V D l ∣ V ∧ ∃ N, V ∣ sqfPart V D l ^ N := by
  unfold sqfPart
  split_ifs with h
  · exact ⟨hV, h.1, dvd_refl _, 1, by rw [pow_one]⟩
  · refine ⟨monic_list_prod ?_, squarefree_list_prod ?_ ?_, ?_, ?_⟩
    · intro g hg
      obtain ⟨q, hq, rfl⟩ := List.mem_map.mp hg
      exact hl.monic q hq
    · intro g hg
      obtain ⟨q, hq, rfl⟩ := List.mem_map.mp hg
      exact hl.sqf q hq
    · rw [List.pairwise_map]
      exact hl.coprime
    · have := prod_dvd_powers hl.pos
      rwa [hl.prod] at this
    · obtain ⟨N, hN⟩ := powers_dvd_pow (l := l)
      rw [hl.prod] at hN
      exact ⟨N, hN⟩

end Verif.BM
