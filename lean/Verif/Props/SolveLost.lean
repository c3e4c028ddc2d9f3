import Verif.Props.SolveRandom
import Mathlib.Algebra.DualNumber

namespace Verif.Props
namespace Solve

open Verif.F4 Verif.Pairs Verif.Spec Verif.MulMatrix Verif.Fglm Verif.BM Verif.Hankel Verif.LinForms Verif.VarOrder Verif.Output Verif.Solve
open Verif.Groebner Verif.ExportF4 Verif.Spec.Solutions
open Verif.Spec.Output (readOutput Tree)
open Verif.Spec.Text (File)
open Verif.Parse (ffPoly)
open Verif.Props.EndToEnd (InputOk inputIdeal read_file twoNames)
open MvPolynomial

/-! ### A system with lost solutions

`y^2`, `x y - y` and `(x - 1) (x - 2) (x - 3)` or, for comparison, `(x - 1)^3`. -/

def loQ (e : Bool) : Poly 2 :=
  (![3, 0], 1) :: match e with
    | true => [(![2, 0], 95), (![1, 0], 11), (![0, 0], 95)]
    | false => [(![2, 0], 98), (![1, 0], 3), (![0, 0], 100)]

def loG (e : Bool) : List (Poly 2) := [[(![0, 2], 1)], [(![1, 1], 1), (![0, 1], 100)], loQ e]

/-- The third polynomial. -/
def loR {R : Type*} [CommRing R] (e : Bool) (a : R) : R :=
  match e with
  | true => a ^ 3 - 6 * a ^ 2 + 11 * a - 6
  | false => a ^ 3 - 3 * a ^ 2 + 3 * a - 1

variable {e : Bool}

theorem loG_ok : ∀ f ∈ loG e, PolyOk .drl 101 f := by
  intro f hf
  simp only [loG, List.mem_cons, List.not_mem_nil, or_false] at hf
  rcases hf with rfl | rfl | rfl
  · refine ⟨⟨_, rfl⟩, ?_, by decide⟩
    simp only [OKind.lt, Drl, DrlOn]
    decide
  · refine ⟨⟨_, rfl⟩, ?_, by decide⟩
    simp only [OKind.lt, Drl, DrlOn]
    decide
  · cases e
    · refine ⟨⟨_, rfl⟩, ?_, by decide⟩
      simp only [OKind.lt, Drl, DrlOn]
      decide
    · refine ⟨⟨_, rfl⟩, ?_, by decide⟩
      simp only [OKind.lt, Drl, DrlOn]
      decide

theorem loG_sorted : (loG e).Pairwise (fun a b => OKind.drl.lt (F4.lead a) (F4.lead b)) := by
  simp only [loG, F4.lead, OKind.lt, Drl, DrlOn]
  cases e <;> decide

noncomputable def loI (e : Bool) : Ideal (MvPolynomial (Fin 2) (ZMod 101)) := Ideal.span { g | ∃ f ∈ loG e, g = toMv 101 f }

theorem lo0 : (2 : ZMod 101) ≠ 0 := by decide

theorem lo1 : (1 : ZMod 101) ≠ -1 ∧ (2 : ZMod 101) ≠ 1 ∧ (3 : ZMod 101) ≠ 1 := by decide

theorem lo_gens (e : Bool) : toMv 101 [((![0, 2] : Mon 2), 1)] = (X 1 ^ 2 : MvPolynomial (Fin 2) (ZMod 101)) ∧
    toMv 101 [((![1, 1] : Mon 2), 1), (![0, 1], 100)] = (X 0 * X 1 - X 1 : MvPolynomial (Fin 2) (ZMod 101)) ∧
    toMv 101 (loQ e) = (loR e (X 0) : MvPolynomial (Fin 2) (ZMod 101)) := by
  have h : ∀ (a b c : ℕ), (monomial (F4.fs (![a, b] : Mon 2)) ((c : ℕ) : ZMod 101) : MvPolynomial (Fin 2) (ZMod 101)) = C (c : ZMod 101) * (X 0 ^ a * X 1 ^ b) := by
    intro a b c
    rw [monomial_eq, Finsupp.prod_fintype _ _ (by simp), Fin.prod_univ_two]
    rfl
  have h100 : (C ((100 : ℕ) : ZMod 101) : MvPolynomial (Fin 2) (ZMod 101)) = -1 := by
    rw [show ((100 : ℕ) : ZMod 101) = -1 by decide, C_neg, C_1]
  have h98 : (C ((98 : ℕ) : ZMod 101) : MvPolynomial (Fin 2) (ZMod 101)) = -3 := by
    rw [show ((98 : ℕ) : ZMod 101) = -3 by decide, C_neg]
    rfl
  have h95 : (C ((95 : ℕ) : ZMod 101) : MvPolynomial (Fin 2) (ZMod 101)) = -6 := by
    rw [show ((95 : ℕ) : ZMod 101) = -6 by decide, C_neg]
    rfl
  have h11 : (C ((11 : ℕ) : ZMod 101) : MvPolynomial (Fin 2) (ZMod 101)) = 11 := rfl
  have h3 : (C ((3 : ℕ) : ZMod 101) : MvPolynomial (Fin 2) (ZMod 101)) = 3 := rfl
  refine ⟨?_, ?_, ?_⟩
  · simp only [toMv, List.map_cons, List.map_nil, List.sum_cons, List.sum_nil, h]
    simp
  · simp only [toMv, List.map_cons, List.map_nil, List.sum_cons, List.sum_nil, h, h100]
    simp
    ring
  · cases e
    · simp only [loQ, loR, toMv, List.map_cons, List.map_nil, List.sum_cons, List.sum_nil, h, h100, h98, h3]
      simp
      ring
    · simp only [loQ, loR, toMv, List.map_cons, List.map_nil, List.sum_cons, List.sum_nil, h, h95, h11]
      simp
      ring

/-- A homomorphism is zero on the ideal if the generators are mapped to zero. -/
theorem lo_kernel {R : Type*} [CommRing R] [Algebra (ZMod 101) R] (a b : R) (h1 : b ^ 2 = 0) (h2 : a * b - b = 0)
    (h3 : loR e a = 0) {g : MvPolynomial (Fin 2) (ZMod 101)} (hg : g ∈ loI e) : aeval ![a, b] g = 0 := by
  have : loI e ≤ RingHom.ker (aeval ![a, b] : MvPolynomial (Fin 2) (ZMod 101) →ₐ[ZMod 101] R).toRingHom := by
    refine Ideal.span_le.mpr ?_
    rintro _ ⟨f, hf, rfl⟩
    obtain ⟨g1, g2, g3⟩ := lo_gens e
    simp only [loG, List.mem_cons, List.not_mem_nil, or_false] at hf
    show aeval ![a, b] _ = 0
    rcases hf with rfl | rfl | rfl
    · rw [g1]
      simpa using h1
    · rw [g2]
      simpa using h2
    · rw [g3]
      cases e
      · simpa [loR] using h3
      · simpa [loR] using h3
  exact this hg

theorem lo_solve : ∀ a b c : ZMod 101, a + b + c = 0 → a + 2 * b + 4 * c = 0 → a + 3 * b + 9 * c = 0 → a = 0 ∧ b = 0 ∧ c = 0 := by
  have hp : Fact (Nat.Prime 101) := ⟨by norm_num⟩
  intro a b c h1 h2 h3
  have hc : (2 : ZMod 101) * c = 0 := by linear_combination h1 - 2 * h2 + h3
  have hc : c = 0 := (mul_eq_zero.mp hc).resolve_left lo0
  subst hc
  have hb : b = 0 := by linear_combination h2 - h1
  subst hb
  exact ⟨by linear_combination h1, rfl, rfl⟩

theorem loG_groebner (e : Bool) : have : Fact (Nat.Prime 101) := ⟨by norm_num⟩
    IsReducedGroebner OKind.drl.mo (loI e) { g | ∃ f ∈ loG e, g = toMv 101 f } := by
  intro hp
  refine ⟨⟨?_, ?_⟩, ?_, ?_⟩
  · rintro _ ⟨f, hf, rfl⟩
    exact Ideal.subset_span ⟨f, hf, rfl⟩
  · intro f hf h0
    by_contra hc
    push Not at hc
    have hne : ∀ g ∈ loG e, toMv 101 g ≠ 0 := by
      intro g hg h
      have := (loG_ok g hg).monic
      rw [h, MonomialOrder.leadingCoeff_zero] at this
      exact zero_ne_one this
    have hcc : ∀ g ∈ loG e, ¬ F4.fs (F4.lead g) ≤ OKind.drl.mo.degree f := by
      intro g hg
      have := hc _ ⟨g, hg, rfl⟩ (hne g hg)
      rwa [(loG_ok g hg).degree] at this
    obtain ⟨u, hu⟩ := fs_surj (OKind.drl.mo.degree f)
    rw [← hu] at hcc
    have c1 : ¬ (![0, 2] : Mon 2) ≤ u := fun h => hcc [(![0, 2], 1)] (by simp [loG]) h
    have c2 : ¬ (![1, 1] : Mon 2) ≤ u := fun h => hcc [(![1, 1], 1), (![0, 1], 100)] (by simp [loG]) h
    have c3 : ¬ (![3, 0] : Mon 2) ≤ u := fun h => hcc (loQ e) (by simp [loG]) h
    rw [Pi.le_def, Fin.forall_fin_two] at c1 c2 c3
    simp at c1 c2 c3
    have hlead : coeff (F4.fs u) f ≠ 0 := by
      rw [hu]
      exact mem_support_iff.mp (OKind.drl.mo.degree_mem_support h0)
    have hlow : ∀ v : Mon 2, coeff (F4.fs v) f ≠ 0 → v = u ∨ OKind.drl.lt v u := by
      intro v hv
      have hle := OKind.drl.mo.le_degree (mem_support_iff.mpr hv)
      by_contra hcon
      push Not at hcon
      rcases OKind.drl.adm.total v u with h | h | h
      · exact hcon.2 h
      · exact hcon.1 h
      · rw [← hu, ← not_lt] at hle
        exact hle ((F4.lt_iff _ _ _).mpr h)
    have hdeg : ∀ v : Mon 2, coeff (F4.fs v) f ≠ 0 → v 0 + v 1 ≤ u 0 + u 1 := by
      intro v hv
      rcases hlow v hv with rfl | h3
      · exact le_rfl
      · simp only [OKind.lt, Drl, DrlOn, Fin.sum_univ_two] at h3
        rcases h3 with h3 | ⟨h3, -⟩ <;> omega
    have hv2 : ∀ v : Mon 2, v = ![v 0, v 1] := by
      intro v
      funext j
      fin_cases j <;> rfl
    have hz : ∀ (v : Mon 2), u 0 + u 1 < v 0 + v 1 → coeff (F4.fs v) f = 0 := by
      intro v hv
      by_contra hcon
      have := hdeg v hcon
      omega
    have hf2 : f = monomial (F4.fs ![0, 0]) (coeff (F4.fs ![0, 0]) f) + monomial (F4.fs ![0, 1]) (coeff (F4.fs ![0, 1]) f) +
        monomial (F4.fs ![1, 0]) (coeff (F4.fs ![1, 0]) f) + monomial (F4.fs ![0, 2]) (coeff (F4.fs ![0, 2]) f) +
        monomial (F4.fs ![1, 1]) (coeff (F4.fs ![1, 1]) f) + monomial (F4.fs ![2, 0]) (coeff (F4.fs ![2, 0]) f) := by
      ext m
      obtain ⟨v, rfl⟩ := fs_surj m
      simp only [coeff_add, coeff_monomial, fs_inj]
      by_cases hv : v 0 + v 1 ≤ 2
      · rw [hv2 v]
        generalize v 0 = a at *
        generalize v 1 = b at *
        have ha : a ≤ 2 := by omega
        interval_cases a
        · have hb : b ≤ 2 := by omega
          interval_cases b <;> simp
        · have hb : b ≤ 1 := by omega
          interval_cases b <;> simp
        · have hb : b ≤ 0 := by omega
          interval_cases b; simp
      · rw [hz v (by omega)]
        have key : ∀ a b : ℕ, a + b ≤ 2 → (![a, b] : Mon 2) ≠ v := by
          rintro a b hab rfl
          exact hv hab
        rw [if_neg (key 0 0 (by omega)), if_neg (key 0 1 (by omega)), if_neg (key 1 0 (by omega)), if_neg (key 0 2 (by omega)), if_neg (key 1 1 (by omega)),
          if_neg (key 2 0 (by omega))]
        simp
    have em : ∀ (R : Type) [CommRing R] [Algebra (ZMod 101) R] (x y : R) (a b : ℕ) (c : ZMod 101),
        aeval ![x, y] (monomial (F4.fs (![a, b] : Mon 2)) c) = algebraMap (ZMod 101) R c * (x ^ a * y ^ b) := by
      intro R _ _ x y a b c
      rw [aeval_monomial, Finsupp.prod_fintype _ _ (by simp), Fin.prod_univ_two]
      rfl
    have ev : ∀ (R : Type) [CommRing R] [Algebra (ZMod 101) R] (x y : R), aeval ![x, y] f =
        algebraMap (ZMod 101) R (coeff (F4.fs ![0, 0]) f) + algebraMap (ZMod 101) R (coeff (F4.fs ![0, 1]) f) * y +
        algebraMap (ZMod 101) R (coeff (F4.fs ![1, 0]) f) * x + algebraMap (ZMod 101) R (coeff (F4.fs ![0, 2]) f) * y ^ 2 +
        algebraMap (ZMod 101) R (coeff (F4.fs ![1, 1]) f) * (x * y) + algebraMap (ZMod 101) R (coeff (F4.fs ![2, 0]) f) * x ^ 2 := by
      intro R _ _ x y
      conv_lhs => rw [hf2]
      simp only [map_add, em, pow_zero, pow_one, mul_one, one_mul]
    have z1 := lo_kernel (e := e) (R := ZMod 101) 1 0 (by decide) (by decide) (by cases e <;> decide) hf
    have z4 := lo_kernel (e := e) (R := DualNumber (ZMod 101)) 1 DualNumber.eps (by rw [pow_two, DualNumber.eps_mul_eps]) (by ring)
      (by cases e <;> simp only [loR] <;> ring) hf
    rw [ev] at z1 z4
    simp only [Algebra.algebraMap_self, RingHom.id_apply, mul_zero, add_zero, mul_one, ne_eq, OfNat.ofNat_ne_zero, not_false_eq_true, zero_pow, one_pow] at z1
    obtain ⟨a1, a2, a3⟩ : coeff (F4.fs ![0, 0]) f = 0 ∧ coeff (F4.fs ![1, 0]) f = 0 ∧ coeff (F4.fs ![2, 0]) f = 0 := by
      cases e
      · have z2 := lo_kernel (e := false) (R := Polynomial (ZMod 101) ⧸ Ideal.span {(Polynomial.X ^ 3 : Polynomial (ZMod 101))})
          (Ideal.Quotient.mk _ (1 + Polynomial.X)) 0 (by ring) (by ring) (by
            have : Ideal.Quotient.mk (Ideal.span {(Polynomial.X ^ 3 : Polynomial (ZMod 101))}) (Polynomial.X ^ 3) = 0 :=
              Ideal.Quotient.eq_zero_iff_mem.mpr (Ideal.mem_span_singleton_self _)
            simp only [map_add, map_one, map_pow, loR] at this ⊢
            linear_combination this) hf
        rw [ev] at z2
        have z3 : Ideal.Quotient.mk (Ideal.span {(Polynomial.X ^ 3 : Polynomial (ZMod 101))}) (Polynomial.C (coeff (F4.fs ![0, 0]) f) +
            Polynomial.C (coeff (F4.fs ![1, 0]) f) * (1 + Polynomial.X) + Polynomial.C (coeff (F4.fs ![2, 0]) f) * (1 + Polynomial.X) ^ 2) = 0 := by
          rw [← z2]
          simp only [map_add, map_mul, map_pow, mul_zero, add_zero, ne_eq, OfNat.ofNat_ne_zero, not_false_eq_true, zero_pow]
          rfl
        rw [Ideal.Quotient.eq_zero_iff_mem, Ideal.mem_span_singleton, Polynomial.X_pow_dvd_iff] at z3
        have y1 := z3 1 (by norm_num)
        have y2 := z3 2 (by norm_num)
        rw [show (1 + Polynomial.X : Polynomial (ZMod 101)) ^ 2 = 1 + Polynomial.C 2 * Polynomial.X + Polynomial.X ^ 2 by
          rw [show (Polynomial.C 2 : Polynomial (ZMod 101)) = 2 from rfl]; ring] at y1 y2
        simp [Polynomial.coeff_one, Polynomial.coeff_X, Polynomial.coeff_C] at y1 y2
        rw [y2] at y1 z1
        have y1 : coeff (F4.fs ![1, 0]) f = 0 := by linear_combination y1
        rw [y1] at z1
        exact ⟨by linear_combination z1, y1, y2⟩
      · have z2 := lo_kernel (e := true) (R := ZMod 101) 2 0 (by decide) (by decide) (by decide) hf
        have z3 := lo_kernel (e := true) (R := ZMod 101) 3 0 (by decide) (by decide) (by decide) hf
        rw [ev] at z2 z3
        simp only [Algebra.algebraMap_self, RingHom.id_apply, mul_zero, add_zero, ne_eq, OfNat.ofNat_ne_zero, not_false_eq_true, zero_pow] at z2 z3
        exact lo_solve _ _ _ (show coeff (F4.fs ![0, 0]) f + coeff (F4.fs ![1, 0]) f + coeff (F4.fs ![2, 0]) f = 0 from z1)
          (by linear_combination z2) (by linear_combination z3)
    have a4 : coeff (F4.fs ![0, 1]) f + coeff (F4.fs ![1, 1]) f = 0 := by
      have := congrArg TrivSqZeroExt.snd z4
      simpa [pow_two, TrivSqZeroExt.algebraMap_eq_inl] using this
    have hu' : u = ![0, 1] := by
      have h4 : u 0 ≤ 2 := by omega
      have h5 : u 1 ≤ 1 := by omega
      have h6 : u 0 = 0 ∨ u 1 = 0 := by omega
      rw [hv2 u] at hlead ⊢
      generalize u 0 = a at *
      generalize u 1 = b at *
      interval_cases a <;> interval_cases b <;> first | rfl | (exfalso; first | exact hlead a1 | exact hlead a2 | exact hlead a3 | omega)
    rw [hu'] at hlead hz
    have : coeff (F4.fs ![1, 1]) f = 0 := hz ![1, 1] (by simp)
    rw [this, add_zero] at a4
    exact hlead a4
  · rintro _ ⟨f, hf, rfl⟩
    exact (loG_ok f hf).monic
  · rintro _ ⟨f, hf, rfl⟩ _ ⟨g, hg, rfl⟩ hne u hu hle
    obtain ⟨v, rfl⟩ := fs_surj u
    rw [(loG_ok g hg).degree] at hle
    have hle : F4.lead g ≤ v := hle
    have hv : ∃ t ∈ f, t.1 = v := by
      by_contra hcon
      push Not at hcon
      exact mem_support_iff.mp hu (toMv_coeff_zero 101 f v hcon)
    obtain ⟨t, ht, rfl⟩ := hv
    have hfg : f ≠ g := fun h => hne (by rw [h])
    have key : ∀ f ∈ loG e, ∀ g ∈ loG e, f ≠ g → ∀ t ∈ f, ¬ (F4.lead g 0 ≤ t.1 0 ∧ F4.lead g 1 ≤ t.1 1) := by cases e <;> decide
    exact key f hf g hg hfg t ht ⟨hle 0, hle 1⟩

/-! ### The computation -/

def loB : List (Mon 2) := [![0, 0], ![0, 1], ![1, 0], ![2, 0]]

theorem loB_sorted : loB.Pairwise OKind.drl.lt := by
  show loB.Pairwise fun a b => DrlOn Finset.univ a b
  simp only [loB, DrlOn]
  decide

theorem loB_mem (m : Mon 2) : m ∈ loB ↔ ∀ f ∈ loG e, ¬ F4.lead f ≤ m := by
  have hv2 : m = ![m 0, m 1] := by
    funext j
    fin_cases j <;> rfl
  have h1 : (∀ f ∈ loG e, ¬ F4.lead f ≤ m) ↔ ¬ 2 ≤ m 1 ∧ ¬ (1 ≤ m 0 ∧ 1 ≤ m 1) ∧ ¬ 3 ≤ m 0 := by
    simp [loG, loQ, F4.lead, Pi.le_def, Fin.forall_fin_two]
  rw [h1]
  generalize m 0 = a at *
  generalize m 1 = b at *
  subst hv2
  constructor
  · intro h
    simp only [loB, List.mem_cons, List.not_mem_nil, or_false] at h
    rcases h with h | h | h | h <;> have h0 := congrFun h 0 <;> have h1 := congrFun h 1 <;> simp at h0 h1 <;> omega
  · intro h
    have ha : a ≤ 2 := by omega
    have hb : b ≤ 1 := by omega
    interval_cases a <;> interval_cases b <;> first | (exfalso; omega) | simp [loB]

theorem lo_squ : squVars loB 0 = 3 := by decide +kernel

theorem lo_basis (e : Bool) : ∃ fuel, Hilbert.monomialBasis ((loG e).map F4.lead) fuel = .done loB := by
  have hp : Fact (Nat.Prime 101) := ⟨by norm_num⟩
  have hfinite : {m : Fin 2 → ℕ | ∀ l ∈ (loG e).map F4.lead, ¬ ∀ i, l i ≤ m i}.Finite := by
    apply Set.Finite.subset (List.finite_toSet loB)
    intro m hm
    rw [Set.mem_ofPred_eq, loB_mem]
    intro f hf hle
    exact hm _ (List.mem_map_of_mem hf) hle
  obtain ⟨fuel, hD⟩ := (C24_termination (by norm_num : 1 ≤ 2) ((loG e).map F4.lead)).1 hfinite
  obtain ⟨lmb, hb⟩ := hD fuel le_rfl
  obtain ⟨h1, h2⟩ := irr_iff (by norm_num) hb
  have : lmb = loB := sorted_ext h1 loB_sorted fun m => by rw [h2, loB_mem]
  exact ⟨fuel, this ▸ hb⟩

/-- The tables for `y^2 = 0`, `x y = y`. -/
theorem lo_table {K A : Type*} [Field K] [CommRing A] [Algebra K A] {l : A →ₗ[K] K} {x y : A} (hy : y * y = 0) (hxy : x * y = y) (hl : l y ≠ 0)
    {xg : Polynomial K → Polynomial K → Polynomial K × Polynomial K × Polynomial K} (hxg : XgcdOk xg) {lam : K} (hlam : lam ≠ -1) :
    IsMinPoly (Polynomial.X ^ 2 : Polynomial K) (lseq l y 1) ∧ ∃ Z2, invTable xg Polynomial.X (Polynomial.X ^ 2) (lseq l y 1) = some Z2 ∧
      coordTable Polynomial.X (Polynomial.X ^ 2) Z2 (lseq l y x) = -1 ∧
      verify xg Polynomial.X (Polynomial.X ^ 2) (-1) lam (lseq l y 1) (lseq l y x) (lseq l y (x * x)) := by
  have hx : Polynomial.aeval y (Polynomial.X ^ 2 : Polynomial K) = 0 := by
    rw [map_pow, Polynomial.aeval_X, pow_two, hy]
  have hmin : IsMinPoly (Polynomial.X ^ 2 : Polynomial K) (lseq l y 1) := by
    refine ⟨Polynomial.monic_X_pow 2, annih_of_aeval 1 hx, fun g hg => ?_⟩
    rw [annihilates_iff, act_lseq, mul_one] at hg
    have hae : Polynomial.aeval y g = algebraMap K A (g.coeff 0) + algebraMap K A (g.coeff 1) * y := by
      conv_lhs => rw [← Polynomial.divX_mul_X_add g, ← Polynomial.divX_mul_X_add g.divX]
      simp only [map_add, map_mul, Polynomial.aeval_X, Polynomial.aeval_C, Polynomial.coeff_divX]
      linear_combination (Polynomial.aeval y g.divX.divX) * hy
    rw [hae] at hg
    have h0 := congrFun hg 0
    have h1 := congrFun hg 1
    simp only [lseq, pow_zero, pow_one, one_mul, Pi.zero_apply] at h0 h1
    have e1 : y * (algebraMap K A (g.coeff 0) + algebraMap K A (g.coeff 1) * y) = g.coeff 0 • y := by
      rw [Algebra.smul_def]
      linear_combination (algebraMap K A (g.coeff 1)) * hy
    rw [e1, map_smul, smul_eq_mul] at h1
    have g0 := (mul_eq_zero.mp h1).resolve_right hl
    rw [g0, map_zero, zero_add, ← Algebra.smul_def, map_smul, smul_eq_mul] at h0
    have g1 := (mul_eq_zero.mp h0).resolve_right hl
    rw [Polynomial.X_pow_dvd_iff]
    intro d hd
    interval_cases d
    · exact g0
    · exact g1
  refine ⟨hmin, ?_⟩
  have hVe : (Polynomial.X ^ 2 : Polynomial K) = Polynomial.X * Polynomial.X := pow_two _
  obtain ⟨Z2, h1, h2⟩ := coordTable_spec hxg hmin hx hVe
  obtain ⟨h3, h4⟩ := h2 x _ rfl
  have h5 : lseq l y (Polynomial.aeval y (Polynomial.X : Polynomial K) * (x - Polynomial.aeval y (1 : Polynomial K))) = 0 := by
    rw [Polynomial.aeval_X, map_one, mul_sub, mul_one, mul_comm, hxy, sub_self]
    funext i
    simp [lseq]
  have h6 := (h4 1).mp h5
  have hone : -coordTable Polynomial.X (Polynomial.X ^ 2) Z2 (lseq l y x) = 1 := by
    rw [Polynomial.degree_X] at h3
    have h7 := Polynomial.eq_C_of_degree_le_zero (Order.lt_succ_iff.mp (show _ < Order.succ (0 : WithBot ℕ) from h3))
    rw [h7, ← Polynomial.C_1, ← Polynomial.C_sub, Polynomial.X_dvd_iff, Polynomial.coeff_C_zero, sub_eq_zero] at h6
    rw [h7, ← h6, Polynomial.C_1]
  have hcoord : coordTable Polynomial.X (Polynomial.X ^ 2) Z2 (lseq l y x) = -1 := by rw [← hone, neg_neg]
  refine ⟨Z2, h1, hcoord, ?_⟩
  have hadd : (fun i => lseq l y x i + lam * lseq l y 1 i) = lseq l y (x + lam • 1) := by
    rw [lseq_add, lseq_smul]
    rfl
  refine (verify_spec hxg hmin hx hVe (P := 1) (by rw [Polynomial.degree_one, Polynomial.degree_X]; exact zero_lt_one) h5 ?_).mpr ?_
  · rw [Polynomial.irreducible_X.coprime_iff_not_dvd, hadd]
    intro hc
    have h8 := (num_dvd (pow_ne_zero 2 Polynomial.X_ne_zero) hVe hx _).mp hc
    have h9 := congrFun h8 0
    rw [Polynomial.aeval_X, mul_add, mul_comm y x, hxy] at h9
    simp only [lseq, pow_zero, one_mul, mul_smul_comm, mul_one, map_add, map_smul, smul_eq_mul, Pi.zero_apply] at h9
    have h10 : (1 + lam) * l y = 0 := by linear_combination h9
    rcases mul_eq_zero.mp h10 with h | h
    · exact hlam (eq_neg_of_add_eq_zero_right h)
    · exact hl h
  · have : Polynomial.aeval y (Polynomial.X : Polynomial K) * (x * x - Polynomial.aeval y (1 : Polynomial K) * Polynomial.aeval y (1 : Polynomial K)) = 0 := by
      rw [Polynomial.aeval_X, map_one]
      linear_combination (x + 1) * hxy
    rw [this]
    funext i
    simp [lseq]

/-- The run of the conversion, for any quotient with the same relations and the same monomial basis. -/
theorem lo_fglm {A : Type*} [CommRing A] {p : ℕ} [Fact p.Prime] [Algebra (ZMod p) A] (x : Fin 2 → A) (hyy : x 1 * x 1 = 0) (hxy : x 0 * x 1 = x 1)
    (B : Module.Basis (Fin loB.length) (ZMod p) A) (hB : ∀ i, B i = ∏ j, x j ^ (loB.getD i 0) j) {M : Mat (ZMod p)}
    (m2 : IsMulMat M (fun i => ∏ j, x j ^ (loB.getD i 0) j) (x 1)) (hncols : M.ncols = 4)
    {hg : Polynomial (ZMod p) → Polynomial (ZMod p) → HM (ZMod p)} (hhg : HgcdOk hg)
    {xg : Polynomial (ZMod p) → Polynomial (ZMod p) → Polynomial (ZMod p) × Polynomial (ZMod p) × Polynomial (ZMod p)} (hxg : XgcdOk xg)
    {vecinit lam : ℕ → ZMod p} (hv : vecinit 1 ≠ 0) (hlam : lam 0 ≠ -1) {nlins : ℕ} {linvars : ℕ → ℕ} (hlin0 : ∀ k, k < 2 - 1 → linvars k = 0)
    (hnl : nlins ≠ 2) (lineqs : ℕ → ZMod p) (inv : Hankel.Inv (ZMod p)) :
    SqfOk (minPoly hg (M.pts vecinit fun _ => 0) 4) [(Polynomial.X, 2)] ∧ ∃ cs,
      fglm nlins linvars lineqs (squVars loB) (M.res vecinit fun _ => 0) (M.resSq vecinit fun _ => 0) inv
        (minPoly hg (M.pts vecinit fun _ => 0) 4) (sqfPart (minPoly hg (M.pts vecinit fun _ => 0) 4) 4 [(Polynomial.X, 2)]) xg lam 2 4 true =
        some (.ok 4 Polynomial.X cs) ∧ cs 0 = -1 := by
  have hfinite : Module.Finite (ZMod p) A := Module.Finite.of_basis B
  have hfin : Module.finrank (ZMod p) A = 4 := by
    rw [Module.finrank_eq_card_basis B, Fintype.card_fin]
    rfl
  set l : A →ₗ[ZMod p] ZMod p := formOf B (fun i : Fin loB.length => vecinit i) with hl
  have hlv : ∀ k, k < M.ncols → vecinit k = l (∏ j, x j ^ (loB.getD k 0) j) := by
    intro k hk
    have hk : k < loB.length := by
      rw [hncols] at hk
      exact hk
    have := hB ⟨k, hk⟩
    rw [show ((⟨k, hk⟩ : Fin loB.length) : ℕ) = k from rfl] at this
    rw [← this, hl, formOf, Module.Basis.constr_basis]
  have hprod : ∀ a b : ℕ, ∏ j, x j ^ (![a, b] : Mon 2) j = x 0 ^ a * x 1 ^ b := by
    intro a b
    rw [Fin.prod_univ_two]
    rfl
  have hly : l (x 1) ≠ 0 := by
    have := hlv 1 (by omega)
    rw [show loB.getD 1 0 = ![0, 1] from rfl, hprod] at this
    rw [pow_zero, one_mul, pow_one] at this
    rw [← this]
    exact hv
  obtain ⟨hmin, Z2, hZ, hcoord, hver⟩ := lo_table (x := x 0) hyy hxy hly hxg (lam := lam 0) hlam
  have hseq : (fun i => M.res vecinit (fun _ => 0) i 0) = lseq l (x 1) 1 := by
    have := res_eq m2 l hlv (fun _ => 0) 0 (Or.inl ⟨rfl, by omega⟩)
    rw [this, if_pos rfl, show loB.getD 0 0 = ![0, 0] from rfl, hprod]
    simp
  have hcol : (fun i => M.res vecinit (fun _ => 0) i 1) = lseq l (x 1) (x 0) := by
    have := res_eq m2 l hlv (fun _ => 0) 1 (Or.inr (by omega))
    rw [this, if_neg (by omega), show loB.getD (1 + 1) 0 = ![1, 0] from rfl, hprod]
    simp
  have hsqc : (fun i => M.resSq vecinit (fun _ => 0) i 3) = lseq l (x 1) (x 0 * x 0) := by
    funext i
    rw [Mat.resSq, iter_spec m2 l hlv (fun _ => 0) i _ (by omega), show loB.getD 3 0 = ![2, 0] from rfl, hprod, pow_zero, mul_one, pow_two]
    rfl
  have hpl : (M.pts vecinit fun _ => 0).length = 2 * 4 := by rw [pts_length, hncols]
  have hpg : ∀ i, i < 2 * 4 → (M.pts vecinit fun _ => 0).getD i 0 = lseq l (x 1) 1 i := by
    intro i hi
    exact pts_getD hseq i (by omega)
  obtain ⟨hmin', -⟩ := minPoly_seq hhg hfin hpl hpg
  have hVeq : elimPoly hg (M.pts vecinit fun _ => 0) 4 = Polynomial.X ^ 2 :=
    Polynomial.eq_of_monic_of_associated hmin'.1 hmin.1 (associated_of_dvd_dvd (hmin'.2.2 _ hmin.2.1) (hmin.2.2 _ hmin'.2.1))
  have hV : minPoly hg (M.pts vecinit fun _ => 0) 4 = Polynomial.X ^ 2 := by
    unfold minPoly
    simp only
    rw [hVeq, if_neg (by rw [Polynomial.natDegree_X_pow]; norm_num)]
  have hsqf : SqfOk (Polynomial.X ^ 2 : Polynomial (ZMod p)) [(Polynomial.X, 2)] := by
    refine ⟨by simp, by simp, by simp [Polynomial.monic_X], ?_, by simp⟩
    intro q hq
    simp only [List.mem_singleton] at hq
    subst hq
    exact Polynomial.irreducible_X.squarefree
  obtain ⟨e1, e2, e3, N, e4⟩ := sqfPart_spec hmin.1 hsqf 4
  have helim : sqfPart (Polynomial.X ^ 2 : Polynomial (ZMod p)) 4 [(Polynomial.X, 2)] = Polynomial.X := by
    refine Polynomial.eq_of_monic_of_associated e1 Polynomial.monic_X (associated_of_dvd_dvd ?_ ?_)
    · exact (e2.dvd_pow_iff_dvd two_ne_zero).mp e3
    · exact Polynomial.prime_X.dvd_of_dvd_pow ((dvd_pow_self _ two_ne_zero).trans e4)
  have hcs : tableLoop Polynomial.X (Polynomial.X ^ 2) Z2 (M.res vecinit fun _ => 0) linvars 2 0 = -1 := by
    rw [tableLoop_nolin _ _ _ _ hlin0 (by norm_num), hcol, hcoord]
  rw [hV]
  refine ⟨hsqf, tableLoop Polynomial.X (Polynomial.X ^ 2) Z2 (M.res vecinit fun _ => 0) linvars 2, ?_, hcs⟩
  rw [helim]
  unfold fglm
  rw [if_neg (by rw [Polynomial.natDegree_X]; norm_num), hseq, hZ]
  simp only
  rw [setLinear_nolin hlin0 hnl, if_neg, if_neg, if_neg]
  · rintro ⟨-, -, i, hi, h0⟩
    obtain rfl : i = 0 := by omega
    rw [lo_squ] at h0
    omega
  · rintro ⟨nc, hnc, -, -, hnv⟩
    obtain rfl : nc = 0 := by omega
    rw [decAt_nolin hlin0 (by omega), show 2 - 2 - 0 = 0 from rfl, show 0 + 1 - 0 = 1 from rfl, hcs, lo_squ, hcol, hsqc] at hnv
    exact hnv hver
  · rintro ⟨⟨k, hk, -, h0⟩, -⟩
    obtain rfl : k = 0 := by omega
    rw [hcs] at h0
    exact neg_ne_zero.mpr one_ne_zero h0

theorem lo_outcome (e : Bool) : have : Fact (Nat.Prime 101) := ⟨by norm_num⟩
    ∀ vecinit lam : ℕ → ZMod 101, vecinit 1 ≠ 0 → lam 0 ≠ -1 →
      ∃ cs, OutcomeV 101 2 true (loG e) vecinit lam (.ok 4 Polynomial.X cs) ∧ cs 0 = -1 := by
  intro hp vecinit lam hv hlam
  obtain ⟨hg, hhg⟩ := hgcd_exists (K := ZMod 101)
  obtain ⟨xg, hxg⟩ := xgcdOk_exists (ZMod 101)
  obtain ⟨fuel, hb⟩ := lo_basis e
  obtain ⟨nf, hnf⟩ := nf_exists (p := 101) (by norm_num) (by norm_num) loG_ok
  have hG := loG_groebner e
  obtain ⟨B, hB⟩ := C60_basis (by norm_num) hG loG_ok hb
  have hR := redBasis_of hG loG_ok loG_sorted
  obtain ⟨M, hM, m1, m2, -⟩ := (C60_matrix (by norm_num) (by norm_num) hG loG_ok loG_sorted hb (by simp [loB]) hnf 1 2).2 (by
    have : {m : Mon 2 | (∀ f ∈ loG e, ¬ F4.lead f ≤ m) ∧ (∃ f ∈ loG e, F4.lead f ≤ m + var 1) ∧ ∀ f ∈ loG e, F4.lead f ≠ m + var 1} ⊆ {![2, 0]} := by
      rintro m ⟨h1, h2, h3⟩
      rw [← loB_mem] at h1
      simp only [loB, List.mem_cons, List.not_mem_nil, or_false] at h1
      rcases h1 with rfl | rfl | rfl | rfl
      · obtain ⟨f, hf, hle⟩ := h2
        have key : ∀ f ∈ loG e, ¬ (F4.lead f 0 ≤ 0 ∧ F4.lead f 1 ≤ 1) := by cases e <;> decide
        exact absurd ⟨hle 0, hle 1⟩ (key f hf)
      · exact absurd (by cases e <;> decide) (h3 [(![0, 2], 1)] (by simp [loG]))
      · exact absurd (by cases e <;> decide) (h3 [(![1, 1], 1), (![0, 1], 100)] (by simp [loG]))
      · rfl
    refine (Set.ncard_le_ncard this (Set.finite_singleton _)).trans ?_
    rw [Set.ncard_singleton]
    cases e <;> decide)
  obtain ⟨g1, g2, g3⟩ := lo_gens e
  have hyy : (X 1 ^ 2 : MvPolynomial (Fin 2) (ZMod 101)) ∈ loI e := by
    rw [← g1]
    exact Ideal.subset_span ⟨_, by simp [loG], rfl⟩
  have hxy : (X 0 * X 1 - X 1 : MvPolynomial (Fin 2) (ZMod 101)) ∈ loI e := by
    rw [← g2]
    exact Ideal.subset_span ⟨_, by simp [loG], rfl⟩
  have hyy' := Ideal.Quotient.eq_zero_iff_mem.mpr hyy
  have hxy' := Ideal.Quotient.eq_zero_iff_mem.mpr hxy
  rw [pow_two, map_mul] at hyy'
  rw [map_sub, map_mul, sub_eq_zero] at hxy'
  have hmv : ∀ u : Mon 2, Ideal.Quotient.mk (loI e) (monomial (F4.fs u) 1) = ∏ j, Ideal.Quotient.mk (loI e) (X j) ^ u j := fun u => (mval_quot u).symm
  simp only [hmv] at hB m2
  have hdim : Hilbert.hasDimensionZero ((loG e).map F4.lead) ≠ false := by cases e <;> decide
  have hred := reduced_fieldPoly hR
  have hnolin : ∀ k : Fin 2, ¬ LinVar (loG e).length (fun i => fieldPoly 101 ((loG e).getD i [])) k := by
    rintro k ⟨i, hi, he⟩
    rw [lead_fieldPoly] at he
    have h1 := congrArg (fun u : Mon 2 => ∑ j, u j) he
    simp only [sum_var] at h1
    have key : ∀ f ∈ loG e, ∑ j, F4.lead f j ≠ 1 := by cases e <;> decide
    exact key _ (getD_mem [] hi) h1
  have hlin0 : ∀ k, k < 2 - 1 → (linVars 2 (loG e).length (lmRow fun i => fieldPoly 101 ((loG e).getD i []))).1 k = 0 := by
    intro k hk
    exact ((linVars_spec hred ⟨k, by omega⟩).2).mpr fun i' hi' he => hnolin ⟨k, by omega⟩ ⟨i', hi', he⟩
  have hnl : (linVars 2 (loG e).length (lmRow fun i => fieldPoly 101 ((loG e).getD i []))).2 ≠ 2 := by
    rw [nlins_spec hred]
    rw [rank, Finset.card_eq_zero.mpr]
    · norm_num
    · ext k
      simp only [Finset.mem_filter, Finset.mem_univ, true_and, Finset.notMem_empty, iff_false, not_and]
      exact fun _ => hnolin k
  obtain ⟨hsq, cs, h1, h2⟩ := lo_fglm (fun j => Ideal.Quotient.mk (loI e) (X j)) hyy' hxy' B hB m2 m1 hhg hxg hv hlam hlin0 hnl
    (rows slotCheck 2 (fun j => (fieldPoly 101 ((loG e).getD j [])).map fun t => (Orders.setEv 2 0 (Orders.ext t.1) fun _ => 0, t.2))
      (linVars 2 (loG e).length (lmRow fun i => fieldPoly 101 ((loG e).getD i []))).1) (invert hg ((M.toMat 101).pts vecinit fun _ => 0) 4)
  refine ⟨cs, ?_, h2⟩
  rw [OutcomeV, if_neg (by cases e <;> decide), if_neg hdim]
  exact ⟨fuel, loB, nf, 1, hb, hnf, rfl, Or.inr ⟨M, hM, by cases e <;> decide, by cases e <;> decide, fun _ => 0, fun _ => 0, hg, [(Polynomial.X, 2)], xg,
    hhg, hsq, hxg, h1⟩⟩

/-! ### The files -/

/-- `y^2`, `x*y-y` and `x^3-6*x^2+11*x-6` or `x^3-3*x^2+3*x-1`. -/
def loTerms (e : Bool) : List (List Text.Mon) :=
  [[⟨false, none, [⟨1, some ['2']⟩]⟩],
   [⟨false, none, [⟨0, none⟩, ⟨1, none⟩]⟩, ⟨true, none, [⟨1, none⟩]⟩],
   ⟨false, none, [⟨0, some ['3']⟩]⟩ :: match e with
    | true => [⟨true, some ⟨['6'], none⟩, [⟨0, some ['2']⟩]⟩, ⟨false, some ⟨['1', '1'], none⟩, [⟨0, none⟩]⟩, ⟨true, some ⟨['6'], none⟩, []⟩]
    | false => [⟨true, some ⟨['3'], none⟩, [⟨0, some ['2']⟩]⟩, ⟨false, some ⟨['3'], none⟩, [⟨0, none⟩]⟩, ⟨true, some ⟨['1'], none⟩, []⟩]]

def loFile (e : Bool) : File := ⟨twoNames, ['1', '0', '1'], ["y^2".toList, "x*y-y".toList,
  match e with
  | true => "x^3-6*x^2+11*x-6".toList
  | false => "x^3-3*x^2+3*x-1".toList], ['\n']⟩

example : (loFile true).text = "x,y\n101\ny^2,\nx*y-y,\nx^3-6*x^2+11*x-6\n".toList := by decide +kernel
example : (loFile false).text = "x,y\n101\ny^2,\nx*y-y,\nx^3-3*x^2+3*x-1\n".toList := by decide +kernel

theorem loFile_ok (e : Bool) : InputOk (loFile e) twoNames 101 (loTerms e) where
  file := by
    refine ⟨?_, by decide, by decide, ?_, by cases e <;> decide, ⟨['1', '0', '1'], [], rfl, ⟨by decide, by decide⟩, by decide, by simp⟩, by decide,
      by cases e <;> decide, ?_, by cases e <;> decide, by cases e <;> decide, ?_, by unfold Text.Fits; cases e <;> decide +kernel⟩
    · have h : ∀ nm ∈ twoNames, nm ≠ [] ∧ (∀ c ∈ nm.head?, c.isDigit = false) ∧
          ∀ c ∈ nm, c ∉ ['*', '^', '+', '-', ','] ∧ Text.isSpace c = false := by decide
      exact fun nm hm => ⟨(h nm hm).1, fun c l hcl => (h nm hm).2.1 c (by rw [hcl]; rfl), (h nm hm).2.2⟩
    · exact .cons ⟨[], [], rfl, by simp, by simp⟩ (.cons ⟨[], [], rfl, by simp, by simp⟩ .nil)
    · cases e
      · exact .cons ⟨by decide +kernel, by decide +kernel, by decide +kernel⟩ (.cons ⟨by decide +kernel, by decide +kernel, by decide +kernel⟩
          (.cons ⟨by decide +kernel, by decide +kernel, by decide +kernel⟩ .nil))
      · exact .cons ⟨by decide +kernel, by decide +kernel, by decide +kernel⟩ (.cons ⟨by decide +kernel, by decide +kernel, by decide +kernel⟩
          (.cons ⟨by decide +kernel, by decide +kernel, by decide +kernel⟩ .nil))
    · have h : ∀ ts ∈ loTerms e, ∀ t ∈ ts, (t.num ≠ none ∨ t.fs ≠ []) ∧
          (∀ a ∈ t.num, (a.n ≠ [] ∧ ∀ c ∈ a.n, c.isDigit = true) ∧ a.d = none) ∧ (∀ f ∈ t.fs, f.v < twoNames.length) ∧
          (∀ f ∈ t.fs, ∀ ds ∈ f.e, (ds ≠ [] ∧ ∀ c ∈ ds, c.isDigit = true) ∧ Text.dec ds < 2 ^ 31) ∧ (t.fs.map (·.v)).Nodup := by
        cases e <;> decide +kernel
      intro ts hts t ht
      obtain ⟨h1, h2, h3, h4, h5⟩ := h ts hts t ht
      exact ⟨h1, fun a ha => ⟨(h2 a ha).1, fun d hd => absurd hd (by rw [(h2 a ha).2]; simp)⟩, h3, h4, h5⟩
  prime := by norm_num
  first := by
    have h : ∀ ts ∈ loTerms e, ∀ t ∈ ts.head?, ∀ a ∈ t.num, a.d = none ∧ Text.dec a.n < 2 ^ 31 ∧ (t.neg = true → Text.dec a.n ≠ 0) := by
      cases e <;> decide +kernel
    exact h
  inner := by
    have h : ∀ ts ∈ loTerms e, ∀ t ∈ ts.tail, ∀ a ∈ t.num, a.d = none ∧ Text.dec a.n < 2 ^ 63 - 1 ∧ Text.dec a.n ≠ 0 := by
      cases e <;> decide +kernel
    exact h
  expanded := by
    have h : ∀ ts ∈ loTerms e, (∀ t ∈ ts, ¬ ((101 : ℕ) : ℤ) ∣ t.numer) ∧ (ts.map (Text.Mon.vec 2)).Nodup ∧
        ∀ t ∈ ts, ∑ i, t.vec 2 i < 65536 := by cases e <;> decide +kernel
    exact fun ts hts => ⟨(h ts hts).1, (h ts hts).2.1, (h ts hts).2.2⟩

theorem lo_poly : (loTerms e).map (Text.poly 101 2) = (loG e).map (toMv 101) := by
  have h : ∀ (t : Text.Mon) (u : Fin 2 → ℕ) (c : ℕ), t.vec 2 = u → ((t.numer : ℤ) : ZMod 101) = ((c : ℕ) : ZMod 101) →
      t.poly 101 2 = MvPolynomial.monomial (F4.fs u) ((c : ℕ) : ZMod 101) := by
    rintro t u c rfl h
    unfold Text.Mon.poly
    rw [h]; rfl
  cases e
  · simp only [loTerms, loG, loQ, List.map_cons, List.map_nil, Text.poly, toMv]
    rw [h _ ![0, 2] 1 (by decide +kernel) (by decide +kernel), h _ ![1, 1] 1 (by decide +kernel) (by decide +kernel),
      h _ ![0, 1] 100 (by decide +kernel) (by decide +kernel), h _ ![3, 0] 1 (by decide +kernel) (by decide +kernel),
      h _ ![2, 0] 98 (by decide +kernel) (by decide +kernel), h _ ![1, 0] 3 (by decide +kernel) (by decide +kernel),
      h _ ![0, 0] 100 (by decide +kernel) (by decide +kernel)]
  · simp only [loTerms, loG, loQ, List.map_cons, List.map_nil, Text.poly, toMv]
    rw [h _ ![0, 2] 1 (by decide +kernel) (by decide +kernel), h _ ![1, 1] 1 (by decide +kernel) (by decide +kernel),
      h _ ![0, 1] 100 (by decide +kernel) (by decide +kernel), h _ ![3, 0] 1 (by decide +kernel) (by decide +kernel),
      h _ ![2, 0] 95 (by decide +kernel) (by decide +kernel), h _ ![1, 0] 11 (by decide +kernel) (by decide +kernel),
      h _ ![0, 0] 95 (by decide +kernel) (by decide +kernel)]

theorem lo_ideal : inputIdeal 2 101 (loTerms e) = loI e := by
  unfold inputIdeal loI
  congr 1
  ext q
  have h1 : (∃ ts ∈ loTerms e, q = Text.poly 101 2 ts) ↔ q ∈ (loTerms e).map (Text.poly 101 2) := by
    rw [List.mem_map]; exact exists_congr fun _ => and_congr_right' eq_comm
  have h2 : (∃ ts ∈ loG e, q = toMv 101 ts) ↔ q ∈ (loG e).map (toMv 101) := by
    rw [List.mem_map]; exact exists_congr fun _ => and_congr_right' eq_comm
  exact h1.trans (lo_poly ▸ h2.symm)

/-- Every result of F4 for this file. -/
theorem lo_f4 {G : List (Poly 2)} (hB : Basis 0 0 101 true (((loTerms e).map (raw0 2 101)).map rawPoly) G) : G = loG e := by
  have hp : Fact (Nat.Prime 101) := ⟨by norm_num⟩
  obtain ⟨-, h1, h2, h3⟩ := basis_reduced (n := 2) (by norm_num) (raw0_ok (loFile_ok e)) hB
  have h1 : IsReducedGroebner OKind.drl.mo (ExportF4.arrayIdeal 101 ((loTerms e).map (raw0 2 101))) { g | ∃ f ∈ G, g = toMv 101 f } := h1
  rw [ideal_raw0, lo_ideal] at h1
  have hset := Groebner.reduced_unique h1 (loG_groebner e)
  have hadm := OKind.drl.adm (n := 2)
  have hnd : ∀ {l : List (Poly 2)}, l.Pairwise (fun a b => OKind.drl.lt (F4.lead a) (F4.lead b)) → l.Nodup := by
    intro l hl
    refine List.Pairwise.imp ?_ hl
    rintro a b hab rfl
    exact hadm.irrefl _ hab
  have hperm : G.Perm (loG e) := (List.perm_ext_iff_of_nodup (hnd h3) (hnd loG_sorted)).mpr fun f => by
    constructor
    · intro hf
      obtain ⟨g, hg, he⟩ := hset.subset ⟨f, hf, rfl⟩
      rw [toMv_injOn (h2 f hf) (loG_ok g hg) he]
      exact hg
    · intro hf
      obtain ⟨g, hg, he⟩ := hset.symm.subset ⟨f, hf, rfl⟩
      rw [toMv_injOn (loG_ok f hf) (h2 g hg) he]
      exact hg
  exact hperm.eq_of_pairwise (le := fun a b => OKind.drl.lt (F4.lead a) (F4.lead b))
    (fun a b _ _ hab hba => absurd (hadm.trans _ _ _ hab hba) (hadm.irrefl _)) h3 loG_sorted

theorem lo_run (e : Bool) : have : Fact (Nat.Prime 101) := ⟨by norm_num⟩
    ∀ vecinit lam : ℕ → ZMod 101, vecinit 1 ≠ 0 → lam 0 ≠ -1 → ∃ (out : List Char) (elim : List ℤ) (coords : List (List ℤ)),
      RunV 2 2 0 (loFile e).text 101 (gensOf twoNames 101 ((loTerms e).map (ffPoly 2 101))) true vecinit lam out ∧
      readOutput out = some (.list [.num 0, modParam 101 2 4 twoNames [0, 1] elim [1] coords]) ∧ elim.length = 2 ∧
      ∀ (L : Type) [Field L] [Algebra (ZMod 101) L] (x y : L), Described twoNames twoNames elim [1] coords (![x, y] : Fin 2 → L) ↔ x = 1 ∧ y = 0 := by
  intro hp vecinit lam hv hlam
  obtain ⟨G, hB⟩ := basis_exists (n := 2) (p := 101) (by norm_num) (by norm_num) (by norm_num) (raw0_ok (loFile_ok e))
  obtain rfl := lo_f4 hB
  obtain ⟨cs, ho, hcs⟩ := lo_outcome e vecinit lam hv hlam
  obtain ⟨D, hD⟩ := shown_exists (Polynomial.X : Polynomial (ZMod 101)) cs 2
  have q1 : (gensOf twoNames 101 ((loTerms e).map (ffPoly 2 101))).fc ≠ 0 := by cases e <;> decide
  obtain ⟨out, h1, h2⟩ := C71_mod (g := gensOf twoNames 101 ((loTerms e).map (ffPoly 2 101))) q1 (dquot := 4) (by norm_num) 0 (D := D)
    ⟨by cases e <;> decide, by cases e <;> decide, fun h => absurd h q1⟩ (nums := [0, 1]) (den := 1) rfl (by cases e <;> decide) []
  have hrun : RunV 2 2 0 (loFile e).text 101 (gensOf twoNames 101 ((loTerms e).map (ffPoly 2 101))) true vecinit lam out :=
    ⟨twoNames, _, [], _, read_file (loFile_ok e), .start, ⟨_, loG e, readGens_gensOf twoNames 101 (loTerms e), hB, ho⟩, ⟨D, hD, h1⟩⟩
  obtain ⟨hel, hlen, hdn, l, hl, hll, hco⟩ := hD
  refine ⟨out, D.melim.map fun c : ℕ => (c : ℤ), (D.mcoords.getD []).map fun q => q.map fun c : ℕ => (c : ℤ), hrun, ?_, ?_, ?_⟩
  · rw [h2, hdn]
    simp only [Option.some.injEq, Tree.list.injEq, List.cons.injEq, and_true, true_and]
    rfl
  · rw [List.length_map, hlen, Polynomial.natDegree_X]
  · intro L _ _ a b
    have hc0 : value ((((D.mcoords.getD []).map fun q => q.map fun c : ℕ => (c : ℤ))).getD 0 []) (0 : L) = -1 := by
      rw [hl, Option.getD_some]
      have h0 := hco 0 (by norm_num)
      rw [List.getD_eq_getElem _ _ (by omega)] at h0
      rw [List.getD_eq_getElem _ _ (by rw [List.length_map]; omega), List.getElem_map, value_cast h0, hcs]
      simp
    have h1 : value [1] (0 : L) = 1 := by simp [value]
    constructor
    · rintro ⟨x, x1, x2, x3, x4⟩
      rw [value_cast hel, Polynomial.aeval_X] at x1
      have x1 : x 1 = 0 := x1
      have x3 := x3 0 (by decide)
      rw [show twoNames.length - 1 = 1 from rfl, x1, hc0, h1] at x3
      have hx0 : a = x 0 := by
        obtain ⟨k, hk, hz⟩ := x4 ⟨0, by decide⟩
        obtain rfl : 0 = k := (List.getElem?_inj (by decide) (show twoNames.Nodup by decide)).mp hk.symm
        exact hz
      have hx1 : b = x 1 := by
        obtain ⟨k, hk, hz⟩ := x4 ⟨1, by decide⟩
        obtain rfl : 1 = k := (List.getElem?_inj (by decide) (show twoNames.Nodup by decide)).mp hk.symm
        exact hz
      rw [hx0, hx1, x1, x3]
      simp
    · rintro ⟨rfl, rfl⟩
      refine ⟨fun k => if k = 0 then 1 else 0, ?_, ?_, ?_, ?_⟩
      · rw [value_cast hel, Polynomial.aeval_X]
        rfl
      · rw [show twoNames.length - 1 = 1 from rfl]
        simp only [one_ne_zero, if_false, h1, ne_eq, not_false_eq_true]
      · intro k hk
        obtain rfl : k = 0 := by
          have : k < 1 := hk
          omega
        rw [show twoNames.length - 1 = 1 from rfl]
        simp only [one_ne_zero, if_false, if_true, h1, hc0, neg_neg, div_one]
      · intro i
        refine ⟨i, by simp, ?_⟩
        obtain ⟨i, hi⟩ := i
        have hi : i < 2 := hi
        interval_cases i <;> rfl

theorem lo_zeros {L : Type} [Field L] [Algebra (ZMod 101) L] (a b : L) :
    (∀ ts ∈ loTerms e, aeval (![a, b] : Fin 2 → L) (Text.poly 101 2 ts) = 0) ↔ b = 0 ∧ loR e a = 0 := by
  obtain ⟨g1, g2, g3⟩ := lo_gens e
  have h : (∀ ts ∈ loTerms e, aeval (![a, b] : Fin 2 → L) (Text.poly 101 2 ts) = 0) ↔
      ∀ q ∈ (loTerms e).map (Text.poly 101 2), aeval (![a, b] : Fin 2 → L) q = 0 := by
    rw [List.forall_mem_map]
  rw [h, lo_poly]
  simp only [loG, List.map_cons, List.map_nil, List.forall_mem_cons, g1, g2, g3, List.not_mem_nil, false_imp_iff, implies_true, and_true]
  have hr : aeval (![a, b] : Fin 2 → L) (loR e (X 0) : MvPolynomial (Fin 2) (ZMod 101)) = loR e a := by
    cases e
    · simp [loR]
    · simp [loR]
  rw [hr]
  simp only [map_pow, map_sub, map_mul, aeval_X]
  show (b ^ 2 = 0 ∧ a * b - b = 0 ∧ loR e a = 0) ↔ _
  constructor
  · rintro ⟨h1, -, h3⟩
    exact ⟨pow_eq_zero_iff two_ne_zero |>.mp h1, h3⟩
  · rintro ⟨rfl, h3⟩
    exact ⟨by ring, by ring, h3⟩

theorem lo_sep {L : Type} [Field L] [Algebra (ZMod 101) L] (z z' : Fin twoNames.length → L)
    (h : ∀ ts ∈ loTerms false, aeval z (Text.poly 101 twoNames.length ts) = 0) (h' : ∀ ts ∈ loTerms false, aeval z' (Text.poly 101 twoNames.length ts) = 0) :
    z = z' := by
  have key : ∀ z : Fin 2 → L, (∀ ts ∈ loTerms false, aeval z (Text.poly 101 2 ts) = 0) → z = ![1, 0] := by
    intro z hz
    have hzz : z = ![z 0, z 1] := by
      funext j
      fin_cases j <;> rfl
    rw [hzz] at hz ⊢
    obtain ⟨h1, h2⟩ := (lo_zeros _ _).mp hz
    have h3 : (z 0 - 1) ^ 3 = 0 := by
      rw [← h2]
      simp only [loR]
      ring
    rw [h1, sub_eq_zero.mp (pow_eq_zero_iff (by norm_num) |>.mp h3)]
  exact (key z h).trans (key z' h').symm

end Solve

open Verif.Spec Verif.Solve Verif.Spec.Solutions
open Verif.Spec.Output (readOutput Tree)
open Verif.Props.EndToEnd (InputOk inputIdeal twoNames)
open MvPolynomial

/-- C82: with the default options, for almost all random choices, solutions are lost.  The system `y^2`, `x y - y`, `(x - 1) (x - 2) (x - 3)` over the field with 101
elements has the solutions `(1, 0)`, `(2, 0)`, `(3, 0)`; for all random elements but those with `vecinit 1 = 0` or `lam 0 = -1` a parametrization that describes only
`(1, 0)` can be printed. -/
theorem C82_lost : have : Fact (Nat.Prime 101) := ⟨by norm_num⟩
    ∃ g, ∀ vecinit lam : ℕ → ZMod 101, vecinit 1 ≠ 0 → lam 0 ≠ -1 → ∃ (out : List Char) (elim : List ℤ) (coords : List (List ℤ)),
      RunV 2 2 0 "x,y\n101\ny^2,\nx*y-y,\nx^3-6*x^2+11*x-6\n".toList 101 g true vecinit lam out ∧
      readOutput out = some (.list [.num 0, modParam 101 2 4 twoNames [0, 1] elim [1] coords]) ∧
      ∀ (L : Type) [Field L] [Algebra (ZMod 101) L] (x y : L), Described twoNames twoNames elim [1] coords (![x, y] : Fin 2 → L) ↔ x = 1 ∧ y = 0 := by
  intro hp
  refine ⟨gensOf twoNames 101 ((Solve.loTerms true).map (Parse.ffPoly 2 101)), fun v lam hv hlam => ?_⟩
  obtain ⟨out, e, cs, h1, h2, -, h3⟩ := Solve.lo_run true v lam hv hlam
  exact ⟨out, e, cs, h1, h2, h3⟩

/-- C82: the same as an execution. -/
theorem C82_lost_run : ∃ out elim coords, Run 2 2 0 "x,y\n101\ny^2,\nx*y-y,\nx^3-6*x^2+11*x-6\n".toList out ∧
    readOutput out = some (.list [.num 0, modParam 101 2 4 twoNames [0, 1] elim [1] coords]) ∧
    ∀ x y : ZMod 101, (x = 2 ∨ x = 3) ∧ y = 0 → (y ^ 2 = 0 ∧ x * y - y = 0 ∧ x ^ 3 - 6 * x ^ 2 + 11 * x - 6 = 0) ∧
      have : Fact (Nat.Prime 101) := ⟨by norm_num⟩
      ¬ Described twoNames twoNames elim [1] coords (![x, y] : Fin 2 → ZMod 101) := by
  have hp : Fact (Nat.Prime 101) := ⟨by norm_num⟩
  obtain ⟨g, h⟩ := C82_lost
  obtain ⟨out, e, cs, h1, h2, h3⟩ := h (fun _ => 1) (fun _ => 1) one_ne_zero Solve.lo1.1
  refine ⟨out, e, cs, C82_elements.mpr ⟨101, hp, g, true, _, _, fun _ => one_ne_zero, h1⟩, h2, ?_⟩
  rintro x y ⟨rfl | rfl, rfl⟩
  · refine ⟨by decide, fun hc => ?_⟩
    have := ((h3 (ZMod 101) _ _).mp hc).1
    exact Solve.lo1.2.1 this
  · refine ⟨by decide, fun hc => ?_⟩
    have := ((h3 (ZMod 101) _ _).mp hc).1
    exact Solve.lo1.2.2 this

namespace Solve

theorem lo_rank (e : Bool) : have : Fact (Nat.Prime 101) := ⟨by norm_num⟩
    4 = Module.finrank (ZMod 101) (MvPolynomial (Fin twoNames.length) (ZMod 101) ⧸ inputIdeal twoNames.length 101 (loTerms e)) := by
  intro hp
  obtain ⟨fuel, hb⟩ := lo_basis e
  obtain ⟨B, -⟩ := C60_basis (by norm_num) (loG_groebner e) loG_ok hb
  have : Module.finrank (ZMod 101) (MvPolynomial (Fin 2) (ZMod 101) ⧸ loI e) = 4 := by
    rw [Module.finrank_eq_card_basis B, Fintype.card_fin]
    rfl
  rw [← this, ← lo_ideal]
  rfl

/-- There is a vector outside of a set of the size in C82 with second element different from zero. -/
theorem lo_vector {S : Finset (Fin 4 → ZMod 101)} (h : 101 * S.card ≤ (3 * twoNames.length + 1) * 4 * 101 ^ 4) :
    ∃ vecinit : ℕ → ZMod 101, (fun i : Fin 4 => vecinit i) ∉ S ∧ vecinit 1 ≠ 0 := by
  have hp : Fact (Nat.Prime 101) := ⟨by norm_num⟩
  have h : 101 * S.card ≤ 28 * 101 ^ 4 := h
  generalize hS : S.card = k at h
  by_contra hcon
  push Not at hcon
  have hsub : (Finset.univ : Finset (Fin 4 → ZMod 101)) ⊆ S ∪ Finset.univ.image fun q : ZMod 101 × ZMod 101 × ZMod 101 => ![q.1, 0, q.2.1, q.2.2] := by
    intro v _
    rw [Finset.mem_union]
    by_cases hv : v ∈ S
    · exact Or.inl hv
    · have := hcon (fun i => if h : i < 4 then v ⟨i, h⟩ else 0) (by simpa using hv)
      right
      rw [Finset.mem_image]
      suffices hsuff : ∃ q : ZMod 101 × ZMod 101 × ZMod 101, ![q.1, 0, q.2.1, q.2.2] = v from hsuff.imp fun q hq => ⟨@Finset.mem_univ _ _ q, hq⟩
      refine ⟨⟨v 0, v 2, v 3⟩, ?_⟩
      funext j
      fin_cases j
      · rfl
      · exact this.symm
      · rfl
      · rfl
  have h1 := (Finset.card_le_card hsub).trans ((Finset.card_union_le _ _).trans (Nat.add_le_add_left Finset.card_image_le _))
  rw [Finset.card_univ, Finset.card_univ, Fintype.card_fun, ZMod.card, Fintype.card_fin, Fintype.card_prod, Fintype.card_prod, ZMod.card, hS] at h1
  omega

/-- The hypotheses of `C82_points` are met by the system with lost solutions: there are a vector outside of the set and an execution with this vector, and all
described points are solutions. -/
example : have : Fact (Nat.Prime 101) := ⟨by norm_num⟩
    ∃ (g : VarOrder.Gens) (vecinit : ℕ → ZMod 101) (out : List Char) (elim : List ℤ) (coords : List (List ℤ)),
      RunV 2 2 0 (loFile true).text 101 g true vecinit (fun _ => 1) out ∧
      readOutput out = some (.list [.num 0, modParam 101 2 4 twoNames [0, 1] elim [1] coords]) ∧
      ∀ (L : Type) [Field L] [Algebra (ZMod 101) L] (z : Fin twoNames.length → L), Described twoNames twoNames elim [1] coords z →
        ∀ ts ∈ loTerms true, aeval z (Text.poly 101 twoNames.length ts) = 0 := by
  intro hp
  obtain ⟨S, h1, h2⟩ := C82_points (loFile_ok true) sx_plain 2 2 0 (gensOf twoNames 101 ((loTerms true).map (Parse.ffPoly 2 101)))
    (lam := fun _ => (1 : ZMod 101)) (fun _ => one_ne_zero) (lo_rank true)
  obtain ⟨v, hv, hv1⟩ := lo_vector h1
  obtain ⟨out, e, cs, r1, r2, -⟩ := lo_run true v (fun _ => 1) hv1 lo1.1
  exact ⟨_, v, out, e, cs, r1, r2, fun L _ _ z => (h2 v out hv r1 _ _ _ _ _ _ _ _ r2 L z).1⟩

/-- The hypotheses of `C82_exact` are met by the system with `(x - 1)^3`, a vector outside of the set and an execution with this vector.  The degree of the printed
eliminating polynomial is 1, the dimension is 4. -/
example : have : Fact (Nat.Prime 101) := ⟨by norm_num⟩
    ∃ (g : VarOrder.Gens) (vecinit : ℕ → ZMod 101) (out : List Char) (elim : List ℤ) (coords : List (List ℤ)),
      RunV 2 2 0 (loFile false).text 101 g true vecinit (fun _ => 1) out ∧ elim.length = 2 ∧
      readOutput out = some (.list [.num 0, modParam 101 2 4 twoNames [0, 1] elim [1] coords]) ∧
      ∀ (L : Type) [Field L] [Algebra (ZMod 101) L] (z : Fin twoNames.length → L),
        (∀ ts ∈ loTerms false, aeval z (Text.poly 101 twoNames.length ts) = 0) ↔ Described twoNames twoNames elim [1] coords z := by
  intro hp
  obtain ⟨S, h1, h2⟩ := C82_exact (loFile_ok false) sx_plain 2 2 0 (gensOf twoNames 101 ((loTerms false).map (Parse.ffPoly 2 101)))
    (lam := fun _ => (1 : ZMod 101)) (fun _ => one_ne_zero) (lo_rank false)
  obtain ⟨v, hv, hv1⟩ := lo_vector h1
  obtain ⟨out, e, cs, r1, r2, r3, -⟩ := lo_run false v (fun _ => 1) hv1 lo1.1
  exact ⟨_, v, out, e, cs, r1, r3, r2, fun L _ _ => (h2 v out hv r1 _ _ _ _ _ _ _ _ r2 ⟨1, by decide⟩ rfl L).mp fun z z' hz hz' _ => lo_sep z z' hz hz'⟩

end Solve

end Verif.Props
