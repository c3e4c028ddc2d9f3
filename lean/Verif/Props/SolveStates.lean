import Verif.Solve
import Verif.Props.ExportF4
import Verif.Props.VarOrder
import Verif.Props.EndToEnd

namespace Verif.Props
namespace Solve

open Verif.F4 Verif.Spec Verif.MulMatrix Verif.VarOrder Verif.Solve Verif.ExportF4
open Verif.Parse (ffPoly expoRow addUntil)
open Verif.Spec.Text (File FirstNum Expanded)
open Verif.Props.EndToEnd (InputOk inputIdeal)
open MvPolynomial

/-! ### The arrays -/

theorem flat_get {n : ℕ} (ts : List (ℤ × (Fin n → ℕ))) (m : ℕ) {k : ℕ} (hk : k < n) :
    (ts.flatMap fun t => List.ofFn fun i => (t.2 i : ℤ))[m * n + k]? = (ts[m]?).map fun t => (t.2 ⟨k, hk⟩ : ℤ) := by
  induction ts generalizing m with
  | nil => simp
  | cons t ts ih =>
    rw [List.flatMap_cons]
    cases m with
    | zero => rw [Nat.zero_mul, Nat.zero_add, List.getElem?_append_left (by simpa using hk)]; simp [hk]
    | succ m =>
      rw [List.getElem?_append_right (by rw [List.length_ofFn]; nlinarith), List.length_ofFn,
        show (m + 1) * n + k - n = m * n + k by rw [Nat.succ_mul]; omega, ih, List.getElem?_cons_succ]

theorem flat_length {n : ℕ} (ts : List (ℤ × (Fin n → ℕ))) : (ts.flatMap fun t => List.ofFn fun i => (t.2 i : ℤ)).length = ts.length * n := by
  induction ts with
  | nil => simp
  | cons t ts ih => rw [List.flatMap_cons, List.length_append, ih, List.length_ofFn, List.length_cons]; ring

theorem exps_flat {n : ℕ} (fs : List (List (ℤ × (Fin n → ℕ)))) :
    (Arrays.of fs).exps = fs.flatten.flatMap fun t => List.ofFn fun i => (t.2 i : ℤ) := by
  unfold Arrays.of
  induction fs with
  | nil => rfl
  | cons f fs ih => simp only [List.flatMap_cons, List.flatten_cons, List.flatMap_append] at ih ⊢; rw [ih]

theorem lens_sum {n : ℕ} (fs : List (List (ℤ × (Fin n → ℕ)))) : (Arrays.of fs).lens.sum = fs.flatten.length := by
  rw [List.length_flatten]; rfl

theorem ext_rows {n : ℕ} (hn : 0 < n) {a b : List ℤ} (h : ∀ m k, k < n → a[m * n + k]? = b[m * n + k]?) : a = b := by
  apply List.ext_getElem?
  intro i
  have := h (i / n) (i % n) (Nat.mod_lt _ hn)
  rwa [Nat.div_add_mod' i n] at this

/-- The terms of the polynomials after the exchange of two variables. -/
def swapTerms {n : ℕ} (a b : Fin n) (fs : List (List (ℤ × (Fin n → ℕ)))) : List (List (ℤ × (Fin n → ℕ))) :=
  fs.map fun f => f.map fun t => (t.1, t.2 ∘ Equiv.swap a b)

theorem swap_val {n : ℕ} (a b k : Fin n) : (Equiv.swap a b k).val = Equiv.swap a.val b.val k.val := by
  rw [Equiv.swap_apply_def, Equiv.swap_apply_def]
  simp only [← Fin.ext_iff]
  split_ifs <;> rfl

theorem swap_exps {n : ℕ} (fs : List (List (ℤ × (Fin n → ℕ)))) {a b : Fin n} (ha : a.val = n - 1) :
    swapExps n b (Arrays.of fs).lens (Arrays.of fs).exps = (Arrays.of (swapTerms a b fs)).exps := by
  have hn : 0 < n := by have := a.2; omega
  apply ext_rows hn
  intro m k hk
  rw [swapExps_get b.2 (by rw [lens_sum, exps_flat, flat_length]) m hk, ← ha,
    show Equiv.swap a.val b.val k = (Equiv.swap a b ⟨k, hk⟩).val from (swap_val a b ⟨k, hk⟩).symm, exps_flat, exps_flat,
    flat_get _ m (Fin.is_lt _), flat_get _ m hk]
  have : (swapTerms a b fs).flatten = fs.flatten.map fun t => (t.1, t.2 ∘ Equiv.swap a b) := by
    unfold swapTerms
    rw [List.map_flatten]
  rw [this, List.getElem?_map, Option.map_map]
  rfl

/-- The terms after the addition of a variable and of a linear form with coefficients `v`. -/
def formTerms {n : ℕ} (v : List ℤ) (fs : List (List (ℤ × (Fin n → ℕ)))) : List (List (ℤ × (Fin (n + 1) → ℕ))) :=
  (fs.map fun f => f.map fun t => (t.1, Fin.snoc t.2 0)) ++ [List.ofFn fun j : Fin (n + 1) => (v.getD j 0, Pi.single j 1)]

theorem form_flatten {n : ℕ} (v : List ℤ) (fs : List (List (ℤ × (Fin n → ℕ)))) : (formTerms v fs).flatten =
    (fs.flatten.map fun t => (t.1, (Fin.snoc t.2 0 : Fin (n + 1) → ℕ))) ++ List.ofFn fun j : Fin (n + 1) => (v.getD j 0, (Pi.single j 1 : Fin (n + 1) → ℕ)) := by
  unfold formTerms
  rw [List.flatten_append, List.map_flatten]
  simp

theorem form_exps {n : ℕ} (v : List ℤ) (fs : List (List (ℤ × (Fin n → ℕ)))) :
    newExps n (Arrays.of fs).lens.sum ((Arrays.of fs).lens.sum + (n + 1)) (Arrays.of fs).exps = (Arrays.of (formTerms v fs)).exps := by
  set T := (Arrays.of fs).lens.sum with hT
  have hTl : fs.flatten.length = T := (lens_sum fs).symm
  have hold : (Arrays.of fs).exps.length = T * n := by rw [exps_flat, flat_length, hTl]
  apply ext_rows (Nat.succ_pos n)
  intro m k hk
  rw [exps_flat (formTerms v fs), flat_get _ m hk, form_flatten]
  rcases Nat.lt_or_ge m T with hm | hm
  · rw [newExps_old hold hm hk, List.getElem?_append_left (by rw [List.length_map, hTl]; exact hm), List.getElem?_map, Option.map_map]
    have hget : fs.flatten[m]? = some (fs.flatten[m]'(by omega)) := List.getElem?_eq_getElem _
    split_ifs with hkn
    · rw [exps_flat, flat_get _ m hkn, hget]
      simp only [Option.map_some, Function.comp_apply, Option.some.injEq]
      have : (⟨k, hk⟩ : Fin (n + 1)) = Fin.castSucc ⟨k, hkn⟩ := rfl
      rw [this, Fin.snoc_castSucc]
    · rw [hget]
      simp only [Option.map_some, Function.comp_apply, Option.some.injEq]
      have : (⟨k, hk⟩ : Fin (n + 1)) = Fin.last n := Fin.ext (show k = n by omega)
      rw [this, Fin.snoc_last]
      rfl
  · rw [List.getElem?_append_right (by rw [List.length_map, hTl]; exact hm), List.length_map, hTl]
    rcases Nat.lt_or_ge (m - T) (n + 1) with ht | ht
    · have := newExps_form (n := n) (T := T) (old := (Arrays.of fs).exps) hold ht hk
      rw [show T + (m - T) = m by omega] at this
      rw [this]
      simp only [List.getElem?_ofFn, ht, dite_true, Option.map_some, Option.some.injEq, Pi.single_apply, Fin.mk.injEq]
      split_ifs <;> rfl
    · rw [List.getElem?_eq_none (by rw [newExps_length hold]; nlinarith [Nat.sub_add_cancel hm]), List.getElem?_eq_none (by rw [List.length_ofFn]; exact ht)]
      rfl

theorem swap_rest {n : ℕ} (a b : Fin n) (fs : List (List (ℤ × (Fin n → ℕ)))) :
    (Arrays.of (swapTerms a b fs)).lens = (Arrays.of fs).lens ∧ (Arrays.of (swapTerms a b fs)).cfs = (Arrays.of fs).cfs := by
  simp [Arrays.of, swapTerms, Function.comp_def, List.flatMap_map]

theorem form_rest {n : ℕ} {v : List ℤ} (hv : v.length = n + 1) (fs : List (List (ℤ × (Fin n → ℕ)))) :
    (Arrays.of (formTerms v fs)).lens = (Arrays.of fs).lens ++ [n + 1] ∧ (Arrays.of (formTerms v fs)).cfs = (Arrays.of fs).cfs ++ v := by
  have h2 : (List.ofFn fun j : Fin (n + 1) => v.getD j 0) = v := by
    apply List.ext_getElem
    · rw [List.length_ofFn, hv]
    · intro i h1 h2
      rw [List.getElem_ofFn, List.getD_eq_getElem?_getD, List.getElem?_eq_getElem h2, Option.getD_some]
  constructor
  · simp [Arrays.of, formTerms, Function.comp_def]
  · conv_rhs => rw [← h2]
    unfold Arrays.of formTerms
    simp only [List.flatMap_append, List.flatMap_map, List.map_map, Function.comp_def, List.flatMap_cons, List.flatMap_nil, List.append_nil,
      List.map_ofFn]

/-! ### The ideals -/

/-- The quotients are isomorphic, the class of variable `i` corresponds to the class of variable `τ i`. -/
def Rel {K : Type*} [Field K] {n n' : ℕ} (I : Ideal (MvPolynomial (Fin n) K)) (I' : Ideal (MvPolynomial (Fin n') K)) (τ : Fin n → Fin n') : Prop :=
  ∃ e : (MvPolynomial (Fin n) K ⧸ I) ≃ₐ[K] (MvPolynomial (Fin n') K ⧸ I'), ∀ i, e (Ideal.Quotient.mk I (X i)) = Ideal.Quotient.mk I' (X (τ i))

section
variable {K : Type*} [Field K] {n n' : ℕ} {I : Ideal (MvPolynomial (Fin n) K)} {I' : Ideal (MvPolynomial (Fin n') K)} {τ : Fin n → Fin n'}

theorem Rel.mk' (y : Fin n' → MvPolynomial (Fin n) K) (hy : ∀ i, y (τ i) = X i)
    (h1 : ∀ f ∈ I, aeval (fun i => (X (τ i) : MvPolynomial (Fin n') K)) f ∈ I') (h2 : ∀ f ∈ I', aeval y f ∈ I)
    (h3 : ∀ j, aeval (fun i => (X (τ i) : MvPolynomial (Fin n') K)) (y j) - X j ∈ I') : Rel I I' τ := by
  set φ : MvPolynomial (Fin n) K →ₐ[K] MvPolynomial (Fin n') K := aeval fun i => X (τ i) with hφ
  set ψ : MvPolynomial (Fin n') K →ₐ[K] MvPolynomial (Fin n) K := aeval y with hψ
  have k1 : I ≤ I'.comap φ := fun f hf => h1 f hf
  have k2 : I' ≤ I.comap ψ := fun f hf => h2 f hf
  have e1 : ∀ j, ψ (X j) = y j := fun j => aeval_X _ _
  have e2 : ∀ i, φ (X i) = X (τ i) := fun i => aeval_X _ _
  refine ⟨AlgEquiv.ofAlgHom (Ideal.quotientMapₐ I' φ k1) (Ideal.quotientMapₐ I ψ k2) ?_ ?_, ?_⟩
  · apply Ideal.Quotient.algHom_ext
    apply MvPolynomial.algHom_ext
    intro j
    change Ideal.Quotient.mk I' (φ (ψ (X j))) = Ideal.Quotient.mk I' (X j)
    rw [Ideal.Quotient.eq, e1]
    exact h3 j
  · apply Ideal.Quotient.algHom_ext
    apply MvPolynomial.algHom_ext
    intro i
    change Ideal.Quotient.mk I (ψ (φ (X i))) = Ideal.Quotient.mk I (X i)
    rw [e2, e1, hy]
  · intro i
    change Ideal.Quotient.mk I' (φ (X i)) = _
    rw [e2]

theorem Rel.top (h : Rel I I' τ) : I = ⊤ ↔ I' = ⊤ := by
  obtain ⟨e, -⟩ := h
  rw [← Ideal.Quotient.subsingleton_iff, ← Ideal.Quotient.subsingleton_iff]
  exact e.toEquiv.subsingleton_congr

theorem Rel.finite (h : Rel I I' τ) : Module.Finite K (MvPolynomial (Fin n) K ⧸ I) ↔ Module.Finite K (MvPolynomial (Fin n') K ⧸ I') := by
  obtain ⟨e, -⟩ := h
  exact ⟨fun _ => Module.Finite.equiv e.toLinearEquiv, fun _ => Module.Finite.equiv e.toLinearEquiv.symm⟩

theorem Rel.finrank (h : Rel I I' τ) : Module.finrank K (MvPolynomial (Fin n) K ⧸ I) = Module.finrank K (MvPolynomial (Fin n') K ⧸ I') := by
  obtain ⟨e, -⟩ := h
  exact e.toLinearEquiv.finrank_eq

theorem Rel.zeros (h : Rel I I' τ) {L : Type*} [Field L] [Algebra K L] (z : Fin n → L) :
    (∀ f ∈ I, aeval z f = 0) ↔ ∃ z' : Fin n' → L, (∀ f ∈ I', aeval z' f = 0) ∧ ∀ i, z i = z' (τ i) := by
  obtain ⟨e, he⟩ := h
  constructor
  · intro hz
    set h : (MvPolynomial (Fin n) K ⧸ I) →ₐ[K] L := Ideal.Quotient.liftₐ I (aeval z) hz with hh
    refine ⟨fun j => h (e.symm (Ideal.Quotient.mk I' (X j))), ?_, ?_⟩
    · intro f hf
      have : aeval (fun j => h (e.symm (Ideal.Quotient.mk I' (X j)))) = (h.comp e.symm.toAlgHom).comp (Ideal.Quotient.mkₐ K I') := by
        apply MvPolynomial.algHom_ext
        intro j
        rw [aeval_X]
        rfl
      rw [this]
      change h (e.symm (Ideal.Quotient.mk I' f)) = 0
      rw [Ideal.Quotient.eq_zero_iff_mem.mpr hf, map_zero, map_zero]
    · intro i
      simp only
      rw [← he, AlgEquiv.symm_apply_apply, hh]
      change _ = aeval z (X i)
      rw [aeval_X]
  · rintro ⟨z', hz', hzz⟩ f hf
    set h : (MvPolynomial (Fin n') K ⧸ I') →ₐ[K] L := Ideal.Quotient.liftₐ I' (aeval z') hz' with hh
    have : aeval z = (h.comp e.toAlgHom).comp (Ideal.Quotient.mkₐ K I) := by
      apply MvPolynomial.algHom_ext
      intro i
      rw [aeval_X]
      change _ = h (e (Ideal.Quotient.mk I (X i)))
      rw [he, hh]
      change _ = aeval z' (X (τ i))
      rw [aeval_X, hzz]
    rw [this]
    change h (e (Ideal.Quotient.mk I f)) = 0
    rw [Ideal.Quotient.eq_zero_iff_mem.mpr hf, map_zero, map_zero]

theorem Rel.refl (I : Ideal (MvPolynomial (Fin n) K)) : Rel I I id := ⟨AlgEquiv.refl, fun _ => rfl⟩

end

/-- Ideals of arrays that differ by a map of the terms and additional polynomials. -/
theorem rel_arrays {p : ℕ} [Fact p.Prime] {n n' : ℕ} {fs : List (List (ℤ × (Fin n → ℕ)))} {T : List (ℤ × (Fin n → ℕ)) → List (ℤ × (Fin n' → ℕ))}
    {extra : List (List (ℤ × (Fin n' → ℕ)))} {τ : Fin n → Fin n'} (y : Fin n' → MvPolynomial (Fin n) (ZMod p)) (hy : ∀ i, y (τ i) = X i)
    (hT : ∀ f ∈ fs, ∀ {A : Type} [CommRing A] [Algebra (ZMod p) A] (z : Fin n' → A), aeval z (apoly p (T f)) = aeval (fun i => z (τ i)) (apoly p f))
    (he : ∀ f ∈ extra, aeval y (apoly p f) = 0)
    (h3 : ∀ j, aeval (fun i => (X (τ i) : MvPolynomial (Fin n') (ZMod p))) (y j) - X j ∈ ExportF4.arrayIdeal p (fs.map T ++ extra)) :
    Rel (ExportF4.arrayIdeal p fs) (ExportF4.arrayIdeal p (fs.map T ++ extra)) τ := by
  have hy' : (fun i => y (τ i)) = X := funext hy
  refine Rel.mk' y hy ?_ ?_ h3
  · intro f hf
    have : ExportF4.arrayIdeal p fs ≤ (ExportF4.arrayIdeal p (fs.map T ++ extra)).comap
        (aeval (R := ZMod p) fun i => (X (τ i) : MvPolynomial (Fin n') (ZMod p))) := by
      refine Ideal.span_le.mpr ?_
      rintro q ⟨f, hf, rfl⟩
      change aeval _ (apoly p f) ∈ ExportF4.arrayIdeal p (fs.map T ++ extra)
      rw [← hT f hf, aeval_X_left_apply]
      exact Ideal.subset_span ⟨T f, List.mem_append_left _ (List.mem_map_of_mem hf), rfl⟩
    exact this hf
  · intro f hf
    have : ExportF4.arrayIdeal p (fs.map T ++ extra) ≤ (ExportF4.arrayIdeal p fs).comap (aeval (R := ZMod p) y) := by
      refine Ideal.span_le.mpr ?_
      rintro q ⟨f, hf, rfl⟩
      change aeval y (apoly p f) ∈ ExportF4.arrayIdeal p fs
      rcases List.mem_append.mp hf with hf | hf
      · obtain ⟨f0, hf0, rfl⟩ := List.mem_map.mp hf
        rw [hT f0 hf0, hy', aeval_X_left_apply]
        exact Ideal.subset_span ⟨f0, hf0, rfl⟩
      · rw [he f hf]
        exact zero_mem _
    exact this hf

theorem aeval_apoly {p : ℕ} {n : ℕ} {A : Type*} [CommRing A] [Algebra (ZMod p) A] (z : Fin n → A) (f : List (ℤ × (Fin n → ℕ))) :
    aeval z (apoly p f) = (f.map fun t => ((t.1 : ℤ) : A) * ∏ i, z i ^ t.2 i).sum := by
  unfold apoly
  rw [map_list_sum, List.map_map]
  congr 1
  apply List.map_congr_left
  intro t _
  rw [Function.comp_apply, aeval_monomial, map_intCast, Finsupp.prod_fintype _ _ (fun i => pow_zero _)]
  rfl

theorem swap_rel {p : ℕ} [Fact p.Prime] {n : ℕ} (a b : Fin n) (fs : List (List (ℤ × (Fin n → ℕ)))) :
    Rel (ExportF4.arrayIdeal p fs) (ExportF4.arrayIdeal p (swapTerms a b fs)) (Equiv.swap a b) := by
  have := rel_arrays (p := p) (fs := fs) (T := fun f => f.map fun t => (t.1, t.2 ∘ Equiv.swap a b)) (extra := [])
    (τ := Equiv.swap a b) (fun j => X (Equiv.swap a b j)) (fun i => by rw [Equiv.swap_apply_self])
    (by
      intro f _ A _ _ z
      rw [aeval_apoly, aeval_apoly, List.map_map]
      congr 1
      apply List.map_congr_left
      intro t _
      simp only [Function.comp_apply]
      congr 1
      rw [← Equiv.prod_comp (Equiv.swap a b)]
      simp)
    (by simp)
    (by
      intro j
      rw [aeval_X, Equiv.swap_apply_self, sub_self]
      exact zero_mem _)
  rwa [List.append_nil] at this

theorem form_rel {p : ℕ} [Fact p.Prime] {n : ℕ} {v : List ℤ} (hv : ¬ (p : ℤ) ∣ v.getD n 0) (fs : List (List (ℤ × (Fin n → ℕ)))) :
    Rel (ExportF4.arrayIdeal p fs) (ExportF4.arrayIdeal p (formTerms v fs)) Fin.castSucc := by
  have hv0 : ((v.getD n 0 : ℤ) : ZMod p) ≠ 0 := by rwa [Ne, ZMod.intCast_zmod_eq_zero_iff_dvd]
  set y : Fin (n + 1) → MvPolynomial (Fin n) (ZMod p) :=
    Fin.snoc (α := fun _ => MvPolynomial (Fin n) (ZMod p)) X (- (C ((v.getD n 0 : ℤ) : ZMod p)⁻¹ * ∑ i : Fin n, C ((v.getD i 0 : ℤ) : ZMod p) * X i)) with hy
  have hform : ∀ {A : Type} [CommRing A] [Algebra (ZMod p) A] (z : Fin (n + 1) → A),
      aeval z (apoly p (List.ofFn fun j : Fin (n + 1) => (v.getD j 0, (Pi.single j 1 : Fin (n + 1) → ℕ)))) =
        ∑ i : Fin n, ((v.getD i 0 : ℤ) : A) * z i.castSucc + ((v.getD n 0 : ℤ) : A) * z (Fin.last n) := by
    intro A _ _ z
    rw [aeval_apoly, List.map_ofFn, List.sum_ofFn, Fin.sum_univ_castSucc]
    have : ∀ j : Fin (n + 1), ∏ i, z i ^ (Pi.single j 1 : Fin (n + 1) → ℕ) i = z j := by
      intro j
      rw [Finset.prod_eq_single j]
      · simp
      · intro i _ hi; simp [hi]
      · simp
    simp only [Function.comp_apply, this, Fin.val_castSucc, Fin.val_last]
  have hcast : ∀ {m : ℕ} (c : ℤ), ((c : ℤ) : MvPolynomial (Fin m) (ZMod p)) = C ((c : ℤ) : ZMod p) := fun c => by rw [map_intCast]
  refine rel_arrays (p := p) (fs := fs) (τ := Fin.castSucc) y (fun i => by rw [hy, Fin.snoc_castSucc]) ?_ ?_ ?_
  · intro f _ A _ _ z
    rw [aeval_apoly, aeval_apoly, List.map_map]
    congr 1
    apply List.map_congr_left
    intro t _
    simp only [Function.comp_apply]
    congr 1
    rw [Fin.prod_univ_castSucc]
    simp
  · intro f hf
    rw [List.mem_singleton] at hf
    subst hf
    rw [hform, hy]
    simp only [Fin.snoc_castSucc, Fin.snoc_last, hcast]
    rw [mul_neg, ← mul_assoc, ← C_mul, mul_inv_cancel₀ hv0, C_1, one_mul, add_neg_cancel]
  · intro j
    refine Fin.lastCases ?_ (fun i => ?_) j
    · have h1 : aeval X (apoly p (List.ofFn fun j : Fin (n + 1) => (v.getD j 0, (Pi.single j 1 : Fin (n + 1) → ℕ)))) ∈
          ExportF4.arrayIdeal p (formTerms v fs) := by
        rw [aeval_X_left_apply]
        exact Ideal.subset_span ⟨_, List.mem_append_right _ (List.mem_singleton_self _), rfl⟩
      rw [hform] at h1
      have h2 := Ideal.mul_mem_left _ (- C ((v.getD n 0 : ℤ) : ZMod p)⁻¹) h1
      change _ ∈ ExportF4.arrayIdeal p (formTerms v fs)
      refine (congrArg (· ∈ ExportF4.arrayIdeal p (formTerms v fs)) ?_).mpr h2
      rw [hy, Fin.snoc_last, map_neg, map_mul, map_sum, algHom_C]
      simp only [map_mul, algHom_C, aeval_X, hcast, algebraMap_eq]
      have h3 : (C ((v.getD n 0 : ℤ) : ZMod p)⁻¹ : MvPolynomial (Fin (n + 1)) (ZMod p)) * C ((v.getD n 0 : ℤ) : ZMod p) = 1 := by
        rw [← C_mul, inv_mul_cancel₀ hv0, C_1]
      linear_combination (X (Fin.last n) : MvPolynomial (Fin (n + 1)) (ZMod p)) * h3
    · rw [hy, Fin.snoc_castSucc, aeval_X, sub_self]
      exact zero_mem _

/-! ### The arrays after reading the file -/

/-- The terms of a polynomial in the file. -/
def raw0 (n p : ℕ) : List Text.Mon → List (ℤ × (Fin n → ℕ))
  | [] => []
  | t :: ts => (addUntil t.numer p, t.vec n) :: ts.map fun u => (u.numer % p, u.vec n)

theorem ofFn_vec (n : ℕ) (t : Text.Mon) : (List.ofFn fun i => ((t.vec n i : ℕ) : ℤ)) = expoRow n t := by
  unfold expoRow Text.Mon.vec
  apply List.ext_getElem <;> simp

theorem rawPoly_raw0 (n p : ℕ) (ts : List Text.Mon) : rawPoly (raw0 n p ts) = ffPoly n p ts := by
  cases ts with
  | nil => rfl
  | cons t ts => simp [raw0, rawPoly, ffPoly, ofFn_vec]

theorem raw0_snd (n p : ℕ) (ts : List Text.Mon) : (raw0 n p ts).map Prod.snd = ts.map (Text.Mon.vec n) := by
  cases ts with
  | nil => rfl
  | cons t ts => simp [raw0]

theorem addUntil_emod (v : ℤ) (p : ℕ) : addUntil v p % p = v % p := by
  unfold addUntil
  split_ifs
  · exact Int.emod_emod_of_dvd _ (dvd_refl _)
  · rfl

theorem raw0_mem {n p : ℕ} (hp : 0 < p) (hp2 : p < 2 ^ 31) {ts : List Text.Mon} (h0 : ∀ t ∈ ts.head?, FirstNum t) {x : ℤ × (Fin n → ℕ)}
    (hx : x ∈ raw0 n p ts) : ∃ t ∈ ts, x.2 = t.vec n ∧ x.1 % p = t.numer % p ∧ 0 ≤ x.1 ∧ x.1 < 2 ^ 31 := by
  cases ts with
  | nil => simp [raw0] at hx
  | cons t ts =>
    rcases List.mem_cons.mp hx with rfl | hx
    · refine ⟨t, List.mem_cons_self, rfl, addUntil_emod _ _, ?_, ?_⟩
      · simp only [addUntil]
        split_ifs
        · exact Int.emod_nonneg _ (by omega)
        · omega
      · simp only [addUntil]
        split_ifs with hneg
        · have := Int.emod_lt_of_pos t.numer (show (0 : ℤ) < p by omega)
          omega
        · have := h0 t (by simp)
          unfold Text.Mon.numer
          cases hn : t.num with
          | none => split_ifs <;> norm_num
          | some a =>
            have := (this a hn).2.1
            simp only
            split_ifs <;> omega
    · obtain ⟨u, hu, rfl⟩ := List.mem_map.mp hx
      have h1 := Int.emod_lt_of_pos u.numer (show (0 : ℤ) < p by omega)
      have h2 := Int.emod_nonneg u.numer (show (p : ℤ) ≠ 0 by omega)
      exact ⟨u, List.mem_cons_of_mem _ hu, rfl, Int.emod_emod_of_dvd _ (dvd_refl _), h2, by omega⟩

theorem apoly_raw0 {n p : ℕ} (ts : List Text.Mon) : apoly p (raw0 n p ts) = Text.poly p n ts := by
  have key : ∀ a b : ℤ, a % p = b % p → ((a : ℤ) : ZMod p) = ((b : ℤ) : ZMod p) := fun a b h => by
    rw [← ZMod.intCast_mod a, h, ZMod.intCast_mod]
  cases ts with
  | nil => rfl
  | cons t ts =>
    unfold apoly Text.poly
    simp only [raw0, List.map_cons, List.map_map, List.sum_cons]
    congr 1
    · unfold Text.Mon.poly
      rw [key _ _ (addUntil_emod t.numer p)]
    · congr 1
      apply List.map_congr_left
      intro u _
      simp only [Function.comp_apply, Text.Mon.poly]
      rw [key _ _ (Int.emod_emod_of_dvd _ (dvd_refl _))]

theorem arrays_raw0 (names : List (List Char)) (p : ℕ) (tss : List (List Text.Mon)) :
    Arrays.of (tss.map (raw0 names.length p)) = ⟨(gensOf names p (tss.map (ffPoly names.length p))).lens,
      (gensOf names p (tss.map (ffPoly names.length p))).exps, (gensOf names p (tss.map (ffPoly names.length p))).cfs⟩ := by
  unfold Arrays.of gensOf
  simp only [List.map_map, List.flatMap_map, Function.comp_def, ← rawPoly_raw0, rawPoly, List.length_map]

theorem raw0_ok {f : File} {names : List (List Char)} {p : ℕ} {tss : List (List Text.Mon)} (h : InputOk f names p tss) :
    ArraysOk p (tss.map (raw0 names.length p)) := by
  have hp := h.prime.pos
  have hp2 := h.file.small
  have key : ∀ g ∈ tss.map (raw0 names.length p), ∀ x ∈ g, ∃ ts ∈ tss, ∃ t ∈ ts, x.2 = t.vec names.length ∧ x.1 % p = t.numer % p ∧ 0 ≤ x.1 ∧ x.1 < 2 ^ 31 := by
    intro g hg x hx
    obtain ⟨ts, hts, rfl⟩ := List.mem_map.mp hg
    exact ⟨ts, hts, raw0_mem hp hp2 (h.first ts hts) hx⟩
  refine ⟨by simpa using h.file.polys, ?_, ?_, ?_, ?_, ?_⟩
  · intro g hg
    obtain ⟨ts, hts, rfl⟩ := List.mem_map.mp hg
    have := h.file.terms ts hts
    cases ts with
    | nil => exact absurd rfl this
    | cons t ts => simp [raw0]
  · intro g hg x hx
    obtain ⟨ts, hts, t, ht, h1, h2, h3, h4⟩ := key g hg x hx
    exact ⟨by omega, h4⟩
  · intro g hg x hx
    obtain ⟨ts, hts, t, ht, h1, h2, h3, h4⟩ := key g hg x hx
    intro hd
    exact (h.expanded ts hts).coeff t ht (Int.dvd_of_emod_eq_zero (by rw [← h2]; exact Int.emod_eq_zero_of_dvd hd))
  · intro g hg
    obtain ⟨ts, hts, rfl⟩ := List.mem_map.mp hg
    rw [raw0_snd]
    exact (h.expanded ts hts).distinct
  · intro g hg x hx
    obtain ⟨ts, hts, t, ht, h1, h2, h3, h4⟩ := key g hg x hx
    rw [h1]
    exact (h.expanded ts hts).deg t ht

theorem ideal_raw0 (n p : ℕ) (tss : List (List Text.Mon)) : ExportF4.arrayIdeal p (tss.map (raw0 n p)) = inputIdeal n p tss := by
  unfold ExportF4.arrayIdeal inputIdeal
  congr 1
  ext q
  constructor
  · rintro ⟨g, hg, rfl⟩
    obtain ⟨ts, hts, rfl⟩ := List.mem_map.mp hg
    exact ⟨ts, hts, apoly_raw0 ts⟩
  · rintro ⟨ts, hts, rfl⟩
    exact ⟨_, List.mem_map_of_mem hts, (apoly_raw0 ts).symm⟩

theorem swap_ok {p n : ℕ} {a b : Fin n} {fs : List (List (ℤ × (Fin n → ℕ)))} (h : ArraysOk p fs) : ArraysOk p (swapTerms a b fs) := by
  have key : ∀ g ∈ swapTerms a b fs, ∃ f ∈ fs, g = f.map fun t => (t.1, t.2 ∘ Equiv.swap a b) := by
    intro g hg
    obtain ⟨f, hf, rfl⟩ := List.mem_map.mp hg
    exact ⟨f, hf, rfl⟩
  refine ⟨by unfold swapTerms; simpa using h.some, ?_, ?_, ?_, ?_, ?_⟩ <;> intro g hg <;> obtain ⟨f, hf, rfl⟩ := key g hg
  · simpa using h.terms f hf
  · intro x hx
    obtain ⟨t, ht, rfl⟩ := List.mem_map.mp hx
    exact h.range f hf t ht
  · intro x hx
    obtain ⟨t, ht, rfl⟩ := List.mem_map.mp hx
    exact h.coeff f hf t ht
  · have := h.distinct f hf
    rw [List.map_map]
    have e : (Prod.snd ∘ fun t : ℤ × (Fin n → ℕ) => (t.1, t.2 ∘ Equiv.swap a b)) = (fun u : Fin n → ℕ => u ∘ Equiv.swap a b) ∘ Prod.snd := rfl
    rw [e, ← List.map_map]
    refine this.map ?_
    intro u w huw
    funext i
    have := congrFun huw (Equiv.swap a b i)
    simpa using this
  · intro x hx
    obtain ⟨t, ht, rfl⟩ := List.mem_map.mp hx
    simp only [Function.comp_apply]
    rw [Equiv.sum_comp (Equiv.swap a b) t.2]
    exact h.deg f hf t ht

theorem form_ok {p n : ℕ} {v : List ℤ} (hp2 : p < 2 ^ 31) {fs : List (List (ℤ × (Fin n → ℕ)))} (h : ArraysOk p fs)
    (hv : ∀ i, i < n + 1 → ¬ (p : ℤ) ∣ v.getD i 0) (hr : ∀ i, i < n + 1 → |v.getD i 0| < p) : ArraysOk p (formTerms v fs) := by
  have key : ∀ g ∈ formTerms v fs, (∃ f ∈ fs, g = f.map fun t => (t.1, (Fin.snoc t.2 0 : Fin (n + 1) → ℕ))) ∨
      g = List.ofFn fun j : Fin (n + 1) => (v.getD j 0, (Pi.single j 1 : Fin (n + 1) → ℕ)) := by
    intro g hg
    rcases List.mem_append.mp hg with hg | hg
    · obtain ⟨f, hf, rfl⟩ := List.mem_map.mp hg
      exact Or.inl ⟨f, hf, rfl⟩
    · exact Or.inr (List.mem_singleton.mp hg)
  refine ⟨by unfold formTerms; simp, ?_, ?_, ?_, ?_, ?_⟩ <;> intro g hg <;> obtain ⟨f, hf, rfl⟩ | rfl := key g hg
  · simpa using h.terms f hf
  · simp [List.ofFn_succ]
  · intro x hx
    obtain ⟨t, ht, rfl⟩ := List.mem_map.mp hx
    exact h.range f hf t ht
  · intro x hx
    obtain ⟨j, rfl⟩ := (List.mem_ofFn' _ _).mp hx
    have := abs_lt.mp (hr j j.2)
    simp only
    omega
  · intro x hx
    obtain ⟨t, ht, rfl⟩ := List.mem_map.mp hx
    exact h.coeff f hf t ht
  · intro x hx
    obtain ⟨j, rfl⟩ := (List.mem_ofFn' _ _).mp hx
    exact hv j j.2
  · have := h.distinct f hf
    rw [List.map_map]
    have e : (Prod.snd ∘ fun t : ℤ × (Fin n → ℕ) => (t.1, (Fin.snoc t.2 0 : Fin (n + 1) → ℕ))) = (fun u : Fin n → ℕ => (Fin.snoc u 0 : Fin (n + 1) → ℕ)) ∘ Prod.snd := rfl
    rw [e, ← List.map_map]
    refine this.map ?_
    intro u w huw
    funext i
    have := congrFun huw i.castSucc
    simpa using this
  · rw [List.map_ofFn]
    refine List.nodup_ofFn.mpr ?_
    intro i j hij
    have := congrFun hij i
    simp only [Function.comp_apply, Pi.single_apply, if_true] at this
    by_contra hne
    rw [if_neg hne] at this
    exact one_ne_zero this
  · intro x hx
    obtain ⟨t, ht, rfl⟩ := List.mem_map.mp hx
    simp only
    rw [Fin.sum_univ_castSucc]
    simpa using h.deg f hf t ht
  · intro x hx
    obtain ⟨j, rfl⟩ := (List.mem_ofFn' _ _).mp hx
    simp

theorem not_dvd_pow {p : ℕ} (hp : p.Prime) {i e : ℕ} (hi : i + 1 < p) : ¬ (p : ℤ) ∣ ((i + 1 : ℕ) : ℤ) ^ e := by
  rw [← Nat.cast_pow, Int.natCast_dvd_natCast]
  intro h
  exact absurd (Nat.le_of_dvd (Nat.succ_pos i) (hp.dvd_of_dvd_pow h)) (by omega)

/-- The arrays in every state between the restarts hold polynomials whose ideal is, up to the exchange of two variables or an additional variable,
that of the file. -/
theorem state_arrays {f : File} {names : List (List Char)} {p : ℕ} [hF : Fact p.Prime] {tss : List (List Text.Mon)} (h : InputOk f names p tss)
    (hsmall : names.length < p) {g : Gens} (hI : Inv (gensOf names p (tss.map (ffPoly names.length p))) g) :
    ∃ (fs : List (List (ℤ × (Fin g.nvars → ℕ)))) (τ : Fin names.length → Fin g.nvars), Arrays.of fs = ⟨g.lens, g.exps, g.cfs⟩ ∧ ArraysOk p fs ∧
      Rel (inputIdeal names.length p tss) (ExportF4.arrayIdeal p fs) τ ∧ (∀ i, g.vnames[(τ i).val]? = some (String.ofList names[i])) ∧
      g.vnames.length = g.nvars ∧ g.fc = p ∧ (∀ s ∈ g.vnames, s = "A" ∨ ∃ nm ∈ names, s = String.ofList nm) ∧
      (g.nvars = names.length ∨ g.nvars = names.length + 1) ∧ (['A'] ∉ names → g.vnames.Nodup) := by
  have ha := arrays_raw0 names p tss
  have hok := raw0_ok h
  have hid := ideal_raw0 names.length p tss
  have hpos : 0 < names.length := List.length_pos_iff.mpr h.file.some
  set fs := tss.map (raw0 names.length p) with hfs
  have hmem : ∀ s ∈ names.map String.ofList, s = "A" ∨ ∃ nm ∈ names, s = String.ofList nm := by
    intro s hs
    obtain ⟨nm, hnm, rfl⟩ := List.mem_map.mp hs
    exact Or.inr ⟨nm, hnm, rfl⟩
  have hnd : (names.map String.ofList).Nodup := h.file.nodup.map fun a b hab => by
    have := congrArg String.toList hab
    simpa using this
  have hl : (Arrays.of fs).lens = (gensOf names p (tss.map (ffPoly names.length p))).lens := by rw [ha]
  have he : (Arrays.of fs).exps = (gensOf names p (tss.map (ffPoly names.length p))).exps := by rw [ha]
  have hc : (Arrays.of fs).cfs = (gensOf names p (tss.map (ffPoly names.length p))).cfs := by rw [ha]
  set g0 := gensOf names p (tss.map (ffPoly names.length p)) with hg0
  have hn0 : g0.nvars = names.length := rfl
  have hv0 : g0.vnames = names.map String.ofList := rfl
  have hf0 : g0.fc = p := rfl
  rcases hI with rfl | ⟨c, hcn, rfl⟩ | ⟨v, -, hv, hE, -, hu, hr⟩
  · refine ⟨fs, id, ha, hok, hid ▸ Rel.refl _, ?_, by rw [hv0, hn0, List.length_map], rfl, hmem, Or.inl rfl, fun _ => hnd⟩
    intro i
    rw [hv0]
    simp
  · have hc1 : c < names.length := by rw [hn0] at hcn; omega
    set a : Fin names.length := ⟨names.length - 1, by omega⟩ with haa
    set b : Fin names.length := ⟨c, hc1⟩ with hbb
    have hget : ∀ i, (swapAt (names.map String.ofList) (names.length - 1) c)[i]? = (names.map String.ofList)[Equiv.swap (names.length - 1) c i]? :=
      swapAt_get (by rw [List.length_map]; omega) (by rw [List.length_map]; omega)
    refine ⟨swapTerms a b fs, Equiv.swap a b, ?_, swap_ok hok, hid ▸ swap_rel a b fs, ?_, ?_, rfl, ?_, Or.inl rfl, fun _ => ?_⟩
    · change _ = (⟨g0.lens, swapExps names.length b g0.lens g0.exps, g0.cfs⟩ : Arrays)
      rw [← hl, ← he, ← hc, swap_exps fs (a := a) rfl, ← (swap_rest a b fs).1, ← (swap_rest a b fs).2]
      rfl
    · intro i
      change (swapAt (names.map String.ofList) (names.length - 1) c)[_]? = _
      rw [hget, swap_val, show Equiv.swap (names.length - 1) c (Equiv.swap a.val b.val i.val) = i.val from Equiv.swap_apply_self _ _ _]
      simp
    · change (swapAt (names.map String.ofList) (names.length - 1) c).length = names.length
      rw [swapAt_length, List.length_map]
    · intro s hs
      change s ∈ swapAt (names.map String.ofList) (names.length - 1) c at hs
      obtain ⟨i, hi⟩ := List.mem_iff_getElem?.mp hs
      rw [hget] at hi
      exact hmem s (List.mem_iff_getElem?.mpr ⟨_, hi⟩)
    · change (swapAt (names.map String.ofList) (names.length - 1) c).Nodup
      rw [List.nodup_iff_getElem?_ne_getElem?]
      intro i j hij hj heq
      rw [swapAt_length, List.length_map] at hj
      rw [hget, hget] at heq
      have hlt : Equiv.swap (names.length - 1) c i < (names.map String.ofList).length := by
        rw [List.length_map, Equiv.swap_apply_def]
        split_ifs <;> omega
      have := (List.getElem?_inj hlt hnd).mp heq
      exact absurd ((Equiv.swap _ _).injective this) (by omega)
  · obtain ⟨nv, fc, vn, lens, exps, cfs, mpz, _, _, _, _⟩ := g
    obtain ⟨e1, e2, e3, e4, e5, e6, e7, -⟩ := hE
    simp only at e1 e2 e3 e4 e5 e7
    rw [hn0] at e1 e3 e5 e6 hv hu hr
    subst e1
    have hvi : ∀ i, i < names.length + 1 → ¬ (p : ℤ) ∣ v.getD i 0 := by
      intro i hi
      rcases Nat.lt_or_ge i names.length with h1 | h1
      · rcases hu i h1 with ⟨e, hd⟩ | hd
        · intro hd'
          refine not_dvd_pow h.prime (i := i) (e := e) (by omega) ?_
          have := dvd_sub hd' hd
          rwa [sub_sub_cancel] at this
        · exact hd
      · rwa [show i = names.length by omega]
    refine ⟨formTerms v fs, Fin.castSucc, ?_, form_ok h.file.small hok hvi (hr h.prime.pos), hid ▸ form_rel (p := p) hv fs, ?_, ?_, e2, ?_, Or.inr rfl, ?_⟩
    · simp only
      have h1 := form_exps v fs
      have e7 := e7 h.prime.pos
      rw [e5, e7, e3, ← hl, ← he, ← hc, h1]
      rw [← (form_rest e6 fs).1, ← (form_rest e6 fs).2]
    · intro i
      simp only
      rw [e4, hv0, Fin.val_castSucc, List.getElem?_append_left (by simp)]
      simp
    · simp only
      rw [e4, hv0]
      simp
    · intro s hs
      simp only at hs
      rw [e4] at hs
      rcases List.mem_append.mp hs with hs | hs
      · exact hmem s hs
      · exact Or.inl (List.mem_singleton.mp hs)
    · intro hA
      simp only
      rw [e4, hv0]
      refine List.nodup_append.mpr ⟨hnd, List.nodup_singleton _, ?_⟩
      intro a ha b hb hab
      rw [List.mem_singleton] at hb
      obtain ⟨nm, hnm, rfl⟩ := List.mem_map.mp ha
      have := congrArg String.toList (hab.trans hb)
      rw [String.toList_ofList] at this
      rw [this] at hnm
      exact hA hnm

end Solve
end Verif.Props
