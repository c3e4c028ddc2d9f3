import Verif.SolveQ
import Verif.Spec.Variant
import Verif.Props.SolveStates
import Verif.Props.EndToEndQq

/-! The generators over the rationals between the restarts. -/
namespace Verif.Props
namespace SolveQ

open Verif.F4 Verif.Spec Verif.MulMatrix Verif.VarOrder Verif.SolveQ Verif.ExportF4 Verif.PrintQq
open Verif.Parse (qqPoly expoRow)
open Verif.Props.EndToEndQq (InputOkQ)
open Verif.Spec.Text (SystemQ File ExpandedQ idealQ polyQ Variant SameBut)
open Verif.Props.Solve (Rel flat_get flat_length exps_flat lens_sum swapTerms formTerms swap_exps form_exps swap_rest form_rest swap_val ofFn_vec)
open MvPolynomial

/-! ### The ideals -/

theorem aeval_polyQ {n : ℕ} {A : Type*} [CommRing A] [Algebra ℚ A] (z : Fin n → A) (ts : List Text.Mon) :
    aeval z (polyQ n ts) = (ts.map fun t => algebraMap ℚ A ((t.numer : ℚ) / (t.denom : ℚ)) * ∏ i, z i ^ t.vec n i).sum := by
  unfold polyQ
  rw [map_list_sum, List.map_map]
  congr 1
  apply List.map_congr_left
  intro t _
  rw [Function.comp_apply, Text.Mon.polyQ, aeval_monomial, Finsupp.prod_fintype _ _ (fun i => pow_zero _)]
  rfl

theorem rel_q {n n' : ℕ} {tss tss' extra : List (List Text.Mon)} {τ : Fin n → Fin n'} (y : Fin n' → MvPolynomial (Fin n) ℚ) (hy : ∀ i, y (τ i) = X i)
    (hT : List.Forall₂ (fun ts ts' => ∀ {A : Type} [CommRing A] [Algebra ℚ A] (z : Fin n' → A), aeval z (polyQ n' ts') = aeval (fun i => z (τ i)) (polyQ n ts)) tss tss')
    (he : ∀ f ∈ extra, aeval y (polyQ n' f) = 0)
    (h3 : ∀ j, aeval (fun i => (X (τ i) : MvPolynomial (Fin n') ℚ)) (y j) - X j ∈ idealQ n' (tss' ++ extra)) :
    Rel (idealQ n tss) (idealQ n' (tss' ++ extra)) τ := by
  have hy' : (fun i => y (τ i)) = X := funext hy
  have hT' := List.forall₂_iff_get.mp hT
  refine Rel.mk' y hy ?_ ?_ h3
  · intro f hf
    have : idealQ n tss ≤ (idealQ n' (tss' ++ extra)).comap (aeval (R := ℚ) fun i => (X (τ i) : MvPolynomial (Fin n') ℚ)) := by
      refine Ideal.span_le.mpr ?_
      rintro q ⟨ts, hts, rfl⟩
      change aeval _ (polyQ n ts) ∈ idealQ n' (tss' ++ extra)
      obtain ⟨i, hi, rfl⟩ := List.mem_iff_getElem.mp hts
      have hi' : i < tss'.length := by rw [← hT'.1]; exact hi
      have h1 := hT'.2 i hi hi' (X : Fin n' → MvPolynomial (Fin n') ℚ)
      simp only [List.get_eq_getElem] at h1
      rw [← h1, aeval_X_left_apply]
      exact Ideal.subset_span ⟨_, List.mem_append_left _ (List.getElem_mem hi'), rfl⟩
    exact this hf
  · intro f hf
    have : idealQ n' (tss' ++ extra) ≤ (idealQ n tss).comap (aeval (R := ℚ) y) := by
      refine Ideal.span_le.mpr ?_
      rintro q ⟨ts, hts, rfl⟩
      change aeval y (polyQ n' ts) ∈ idealQ n tss
      rcases List.mem_append.mp hts with hts | hts
      · obtain ⟨i, hi, rfl⟩ := List.mem_iff_getElem.mp hts
        have hi' : i < tss.length := by rw [hT'.1]; exact hi
        have h1 := hT'.2 i hi' hi y
        simp only [List.get_eq_getElem] at h1
        rw [h1, hy', aeval_X_left_apply]
        exact Ideal.subset_span ⟨_, List.getElem_mem hi', rfl⟩
      · rw [he ts hts]
        exact zero_mem _
    exact this hf

theorem sameBut_aeval {n n' : ℕ} {σ : (Fin n → ℕ) → Fin n' → ℕ} {ts ts' : List Text.Mon} (h : List.Forall₂ (SameBut n n' σ) ts ts') {A : Type} [CommRing A]
    [Algebra ℚ A] (z : Fin n' → A) (y : Fin n → A) (hσ : ∀ u, ∏ i, z i ^ σ u i = ∏ i, y i ^ u i) :
    aeval z (polyQ n' ts') = aeval y (polyQ n ts) := by
  rw [aeval_polyQ, aeval_polyQ]
  induction h with
  | nil => rfl
  | cons h _ ih => rw [List.map_cons, List.map_cons, List.sum_cons, List.sum_cons, ih, h.numer, h.denom, h.vec, hσ]

theorem variant_rel {n n' : ℕ} {tss tss' : List (List Text.Mon)} {τ : Fin n → Fin n'} (h : Variant n tss n' τ tss') : Rel (idealQ n tss) (idealQ n' tss') τ := by
  cases h with
  | same => exact Rel.refl _
  | swapped a b h =>
    have := rel_q (tss := tss) (tss' := tss') (extra := []) (τ := Equiv.swap a b) (fun j => X (Equiv.swap a b j)) (fun i => by rw [Equiv.swap_apply_self])
      (by
        refine h.imp ?_
        intro ts ts' h A _ _ z
        refine sameBut_aeval h z (fun i => z (Equiv.swap a b i)) fun u => ?_
        rw [← Equiv.prod_comp (Equiv.swap a b)]
        simp) (by simp) (by
        intro j
        rw [aeval_X, Equiv.swap_apply_self, sub_self]
        exact zero_mem _)
    rwa [List.append_nil] at this
  | form v hv h hl =>
    rename_i tss' l
    have hv0 : ((v (Fin.last n) : ℤ) : ℚ) ≠ 0 := by exact_mod_cast hv _
    set y : Fin (n + 1) → MvPolynomial (Fin n) ℚ :=
      Fin.snoc (α := fun _ => MvPolynomial (Fin n) ℚ) X (- (C ((v (Fin.last n) : ℤ) : ℚ)⁻¹ * ∑ i : Fin n, C ((v i.castSucc : ℤ) : ℚ) * X i)) with hy
    have hform : ∀ {A : Type} [CommRing A] [Algebra ℚ A] (z : Fin (n + 1) → A), aeval z (polyQ (n + 1) l) =
        ∑ i : Fin n, ((v i.castSucc : ℤ) : A) * z i.castSucc + ((v (Fin.last n) : ℤ) : A) * z (Fin.last n) := by
      intro A _ _ z
      have h1 : (l.map fun t => algebraMap ℚ A ((t.numer : ℚ) / (t.denom : ℚ)) * ∏ i, z i ^ t.vec (n + 1) i) =
          (l.map fun t => (t.numer, t.denom, t.vec (n + 1))).map fun q => algebraMap ℚ A ((q.1 : ℚ) / (q.2.1 : ℚ)) * ∏ i, z i ^ q.2.2 i := by
        rw [List.map_map]
        rfl
      rw [aeval_polyQ, h1, hl, List.map_ofFn, List.sum_ofFn, Fin.sum_univ_castSucc]
      have : ∀ j : Fin (n + 1), ∏ i, z i ^ (Pi.single j 1 : Fin (n + 1) → ℕ) i = z j := by
        intro j
        rw [Finset.prod_eq_single j]
        · simp
        · intro i _ hi; simp [hi]
        · simp
      simp only [Function.comp_apply, this, Int.cast_one, div_one, map_intCast]
    have hcast : ∀ {m : ℕ} (c : ℤ), ((c : ℤ) : MvPolynomial (Fin m) ℚ) = C ((c : ℤ) : ℚ) := fun c => by rw [map_intCast]
    refine rel_q (τ := Fin.castSucc) y (fun i => by rw [hy, Fin.snoc_castSucc]) (by
      refine h.imp ?_
      intro ts ts' h A _ _ z
      refine sameBut_aeval h z (fun i => z i.castSucc) fun u => ?_
      rw [Fin.prod_univ_castSucc]
      simp) ?_ ?_
    · intro f hf
      rw [List.mem_singleton] at hf
      subst hf
      rw [hform, hy]
      simp only [Fin.snoc_castSucc, Fin.snoc_last, hcast]
      rw [mul_neg, ← mul_assoc, ← C_mul, mul_inv_cancel₀ hv0, C_1, one_mul, add_neg_cancel]
    · intro j
      refine Fin.lastCases ?_ (fun i => ?_) j
      · have h1 : aeval X (polyQ (n + 1) l) ∈ idealQ (n + 1) (tss' ++ [l]) := by
          rw [aeval_X_left_apply]
          exact Ideal.subset_span ⟨_, List.mem_append_right _ (List.mem_singleton_self _), rfl⟩
        rw [hform] at h1
        have h2 := Ideal.mul_mem_left _ (- C ((v (Fin.last n) : ℤ) : ℚ)⁻¹) h1
        refine (congrArg (· ∈ idealQ (n + 1) (tss' ++ [l])) ?_).mpr h2
        rw [hy, Fin.snoc_last, map_neg, map_mul, map_sum, algHom_C]
        simp only [map_mul, algHom_C, aeval_X, hcast, algebraMap_eq]
        have h3 : (C ((v (Fin.last n) : ℤ) : ℚ)⁻¹ : MvPolynomial (Fin (n + 1)) ℚ) * C ((v (Fin.last n) : ℤ) : ℚ) = 1 := by
          rw [← C_mul, inv_mul_cancel₀ hv0, C_1]
        linear_combination (X (Fin.last n) : MvPolynomial (Fin (n + 1)) ℚ) * h3
      · rw [hy, Fin.snoc_castSucc, aeval_X, sub_self]
        exact zero_mem _

theorem sameBut_expanded {n n' : ℕ} {σ : (Fin n → ℕ) → Fin n' → ℕ} (hσ : Function.Injective σ) (hs : ∀ u, ∑ i, σ u i = ∑ i, u i) {ts ts' : List Text.Mon}
    (h : List.Forall₂ (SameBut n n' σ) ts ts') (hE : ExpandedQ n ts) : ExpandedQ n' ts' := by
  have key : ∀ t' ∈ ts', ∃ t ∈ ts, SameBut n n' σ t t' := by
    intro t' ht'
    obtain ⟨i, hi, rfl⟩ := List.mem_iff_getElem.mp ht'
    have h' := List.forall₂_iff_get.mp h
    have hi' : i < ts.length := by rw [h'.1]; exact hi
    exact ⟨_, List.getElem_mem hi', h'.2 i hi' hi⟩
  refine ⟨?_, ?_, ?_, ?_⟩
  · intro t' ht'
    obtain ⟨t, ht, h1⟩ := key t' ht'
    rw [h1.numer]
    exact hE.numer t ht
  · intro t' ht'
    obtain ⟨t, ht, h1⟩ := key t' ht'
    rw [h1.denom]
    exact hE.denom t ht
  · have : ts'.map (Text.Mon.vec n') = (ts.map (Text.Mon.vec n)).map σ := by
      clear key hE
      induction h with
      | nil => rfl
      | cons h _ ih => simp only [List.map_cons, ih, h.vec]
    rw [this]
    exact hE.distinct.map hσ
  · intro t' ht'
    obtain ⟨t, ht, h1⟩ := key t' ht'
    rw [h1.vec, hs]
    exact hE.deg t ht

theorem variant_expanded {n n' : ℕ} {tss tss' : List (List Text.Mon)} {τ : Fin n → Fin n'} (h : Variant n tss n' τ tss') (hE : ∀ ts ∈ tss, ExpandedQ n ts) :
    ∀ ts ∈ tss', ExpandedQ n' ts := by
  have mem : ∀ {n' : ℕ} {σ : (Fin n → ℕ) → Fin n' → ℕ} {tss'}, List.Forall₂ (List.Forall₂ (SameBut n n' σ)) tss tss' → ∀ ts' ∈ tss', ∃ ts ∈ tss,
      List.Forall₂ (SameBut n n' σ) ts ts' := by
    intro n' σ tss' h ts' ht'
    obtain ⟨i, hi, rfl⟩ := List.mem_iff_getElem.mp ht'
    have h' := List.forall₂_iff_get.mp h
    have hi' : i < tss.length := by rw [h'.1]; exact hi
    exact ⟨_, List.getElem_mem hi', h'.2 i hi' hi⟩
  cases h with
  | same => exact hE
  | swapped a b h =>
    intro ts' ht'
    obtain ⟨ts, ht, h1⟩ := mem h ts' ht'
    refine sameBut_expanded ?_ ?_ h1 (hE ts ht)
    · intro u w huw
      funext i
      have := congrFun huw (Equiv.swap a b i)
      simpa using this
    · intro u
      exact Equiv.sum_comp (Equiv.swap a b) u
  | form v hv h hl =>
    intro ts' ht'
    rcases List.mem_append.mp ht' with ht' | ht'
    · obtain ⟨ts, ht, h1⟩ := mem h ts' ht'
      refine sameBut_expanded ?_ ?_ h1 (hE ts ht)
      · intro u w huw
        funext i
        have := congrFun huw i.castSucc
        simpa using this
      · intro u
        rw [Fin.sum_univ_castSucc]
        simp
    · rw [List.mem_singleton] at ht'
      subst ht'
      have key : ∀ t ∈ ts', ∃ j, t.numer = v j ∧ t.denom = 1 ∧ t.vec (n + 1) = Pi.single j 1 := by
        intro t ht
        have := List.mem_map_of_mem (f := fun t : Text.Mon => (t.numer, t.denom, t.vec (n + 1))) ht
        rw [hl] at this
        obtain ⟨j, hj⟩ := (List.mem_ofFn' _ _).mp this
        simp only [Prod.mk.injEq] at hj
        exact ⟨j, hj.1.symm, hj.2.1.symm, hj.2.2.symm⟩
      refine ⟨?_, ?_, ?_, ?_⟩
      · intro t ht
        obtain ⟨j, h1, h2, h3⟩ := key t ht
        rw [h1]
        exact hv j
      · intro t ht
        obtain ⟨j, h1, h2, h3⟩ := key t ht
        rw [h2]
        exact one_ne_zero
      · have : ts'.map (Text.Mon.vec (n + 1)) = List.ofFn fun j : Fin (n + 1) => (Pi.single j 1 : Fin (n + 1) → ℕ) := by
          have := congrArg (List.map fun q : ℤ × ℤ × (Fin (n + 1) → ℕ) => q.2.2) hl
          rw [List.map_map, List.map_ofFn] at this
          exact this
        rw [this]
        refine List.nodup_ofFn.mpr ?_
        intro i j hij
        have := congrFun hij i
        simp only [Pi.single_apply, if_true] at this
        by_contra hne
        rw [if_neg hne] at this
        exact one_ne_zero this
      · intro t ht
        obtain ⟨j, h1, h2, h3⟩ := key t ht
        rw [h3]
        simp

theorem variant_terms {n n' : ℕ} {tss tss' : List (List Text.Mon)} {τ : Fin n → Fin n'} (h : Variant n tss n' τ tss') (ht : tss ≠ []) (hne : ∀ ts ∈ tss, ts ≠ []) :
    tss' ≠ [] ∧ ∀ ts ∈ tss', ts ≠ [] := by
  have mem : ∀ {n' : ℕ} {σ : (Fin n → ℕ) → Fin n' → ℕ} {tss'}, List.Forall₂ (List.Forall₂ (SameBut n n' σ)) tss tss' → tss' ≠ [] ∧ ∀ ts' ∈ tss', ts' ≠ [] := by
    intro n' σ tss' h
    have h' := List.forall₂_iff_get.mp h
    refine ⟨?_, ?_⟩
    · intro h0
      rw [h0] at h'
      exact ht (List.length_eq_zero_iff.mp h'.1)
    · intro ts' ht' h0
      obtain ⟨i, hi, rfl⟩ := List.mem_iff_getElem.mp ht'
      have hi' : i < tss.length := by rw [h'.1]; exact hi
      have h1 := (h'.2 i hi' hi).length_eq
      simp only [List.get_eq_getElem] at h1
      rw [h0] at h1
      exact hne _ (List.getElem_mem hi') (List.length_eq_zero_iff.mp h1)
  cases h with
  | same => exact ⟨ht, hne⟩
  | swapped a b h => exact mem h
  | form v hv h hl =>
    refine ⟨by simp, ?_⟩
    intro ts' ht'
    rcases List.mem_append.mp ht' with ht' | ht'
    · exact (mem h).2 ts' ht'
    · rw [List.mem_singleton] at ht'
      subst ht'
      rintro rfl
      simp at hl

/-! ### The arrays -/

/-- A term with its coefficient as numerator and denominator. -/
abbrev QRow (n : ℕ) := (ℤ × ℤ) × (Fin n → ℕ)

def numPart {n : ℕ} (t : QRow n) : ℤ × (Fin n → ℕ) := (t.1.1, t.2)

/-- The entries of `mpz_cfs`. -/
def mpzOf {n : ℕ} (fs : List (List (QRow n))) : List ℤ := fs.flatMap fun f => f.flatMap fun t => [t.1.1, t.1.2]

def rawQ {n : ℕ} (f : List (QRow n)) : List ((ℤ × ℤ) × List ℤ) := f.map fun t => (t.1, List.ofFn fun i => (t.2 i : ℤ))

theorem pairs_length {n : ℕ} (f : List (QRow n)) : (f.flatMap fun t => [t.1.1, t.1.2]).length = 2 * f.length := by
  induction f with
  | nil => rfl
  | cons t f ih => rw [List.flatMap_cons, List.length_append, ih]; simp; ring

theorem readTermQ_at {n : ℕ} (E0 E1 C0 C1 : List ℤ) (off : ℕ) (hE : E0.length = n * off) (hC : C0.length = 2 * off) (t : QRow n) :
    readTermQ n (E0 ++ ((List.ofFn fun i => (t.2 i : ℤ)) ++ E1)) (C0 ++ t.1.1 :: t.1.2 :: C1) off = some (t.1, List.ofFn fun i => (t.2 i : ℤ)) := by
  unfold readTermQ
  rw [List.getElem?_append_right (by omega), hC, Nat.sub_self, List.getElem?_cons_zero, List.getElem?_append_right (by omega), hC,
    show 2 * off + 1 - 2 * off = 1 by omega, List.getElem?_cons_succ, List.getElem?_cons_zero]
  simp only [Option.bind_some]
  rw [mapM_some _ (fun i => (List.ofFn fun i => (t.2 i : ℤ)).getD i 0)]
  · simp only [Option.map_some, Option.some.injEq, Prod.mk.injEq, true_and]
    apply List.ext_getElem
    · simp
    · intro i h1 h2
      simp only [List.length_ofFn] at h2
      simp [List.getD_eq_getElem?_getD, h2]
  · intro i hi
    have hi := List.mem_range.mp hi
    rw [List.getElem?_append_right (by omega), hE, Nat.add_sub_cancel_left, List.getElem?_append_left (by simpa using hi)]
    simp [List.getD_eq_getElem?_getD, hi]

theorem readPolyQ_at {n : ℕ} (f : List (QRow n)) : ∀ (E0 E1 C0 C1 : List ℤ) (off : ℕ), E0.length = n * off → C0.length = 2 * off →
    (List.range' off f.length).mapM (readTermQ n (E0 ++ (((f.map numPart).flatMap fun t => List.ofFn fun i => (t.2 i : ℤ)) ++ E1))
      (C0 ++ ((f.flatMap fun t => [t.1.1, t.1.2]) ++ C1))) = some (rawQ f) := by
  induction f with
  | nil => intros; rfl
  | cons t f ih =>
    intro E0 E1 C0 C1 off hE hC
    rw [List.length_cons, List.range'_succ, List.mapM_cons]
    have h1 := readTermQ_at E0 (((f.map numPart).flatMap fun t => List.ofFn fun i => (t.2 i : ℤ)) ++ E1) C0
      ((f.flatMap fun t => [t.1.1, t.1.2]) ++ C1) off hE hC t
    have h2 := ih (E0 ++ List.ofFn fun i => (t.2 i : ℤ)) E1 (C0 ++ [t.1.1, t.1.2]) C1 (off + 1) (by simp [hE]; ring) (by simp [hC]; ring)
    simp only [List.flatMap_cons, List.map_cons, List.append_assoc, List.cons_append, List.nil_append, numPart] at h1 h2 ⊢
    rw [h1, h2]
    rfl

theorem readGensQ_at {n : ℕ} (fs : List (List (QRow n))) : ∀ (E0 C0 : List ℤ) (off : ℕ), E0.length = n * off → C0.length = 2 * off →
    readGensQ n (E0 ++ (Arrays.of (fs.map (List.map numPart))).exps) (C0 ++ mpzOf fs) off (Arrays.of (fs.map (List.map numPart))).lens =
      some (fs.map rawQ) := by
  induction fs with
  | nil => intros; rfl
  | cons f fs ih =>
    intro E0 C0 off hE hC
    have h1 := readPolyQ_at f E0 (Arrays.of (fs.map (List.map numPart))).exps C0 (mpzOf fs) off hE hC
    have h2 := ih (E0 ++ (f.map numPart).flatMap fun t => List.ofFn fun i => (t.2 i : ℤ)) (C0 ++ f.flatMap fun t => [t.1.1, t.1.2]) (off + f.length)
      (by rw [List.length_append, flat_length, hE, List.length_map]; ring) (by rw [List.length_append, pairs_length, hC]; ring)
    simp only [Arrays.of, mpzOf, List.flatMap_cons, List.map_cons, List.append_assoc, readGensQ, List.length_map] at h1 h2 ⊢
    rw [h1]
    simp only [Option.bind_some]
    rw [h2]
    rfl

theorem readGensQ_of {n : ℕ} (fs : List (List (QRow n))) :
    readGensQ n (Arrays.of (fs.map (List.map numPart))).exps (mpzOf fs) 0 (Arrays.of (fs.map (List.map numPart))).lens = some (fs.map rawQ) := by
  have := readGensQ_at fs [] [] 0 (by simp) rfl
  simpa using this

/-- A term as a text. -/
def monOf {n : ℕ} (t : QRow n) : Text.Mon := qMon false n t.1.1 t.1.2 (List.ofFn t.2)

theorem monOf_vec {n : ℕ} (t : QRow n) : (monOf t).vec n = t.2 := by
  have h := qMon_expoRow false t.1.1 t.1.2 (e := List.ofFn t.2) (List.length_ofFn)
  have h' := (ofFn_vec n (monOf t)).trans h
  rw [List.map_ofFn] at h'
  have := List.ofFn_injective h'
  funext i
  have := congrFun this i
  simpa using this

theorem rawQ_monOf {n : ℕ} {f : List (QRow n)} (h : ∀ t ∈ f, 0 < t.1.2) : rawQ f = qqPoly n (f.map monOf) := by
  unfold rawQ qqPoly
  rw [List.map_map]
  apply List.map_congr_left
  intro t ht
  simp only [Function.comp_apply]
  rw [← ofFn_vec, monOf_vec]
  unfold monOf
  rw [qMon_numer, qMon_denom _ _ _ (h t ht)]

/-- The terms in the file. -/
def rows0 (n : ℕ) (tss : List (List Text.Mon)) : List (List (QRow n)) := tss.map fun ts => ts.map fun t => ((t.numer, t.denom), t.vec n)

theorem denom_pos {n : ℕ} {ts : List Text.Mon} (h : ExpandedQ n ts) {t : Text.Mon} (ht : t ∈ ts) : 0 < t.denom := by
  have h1 := h.denom t ht
  have h2 : 0 ≤ t.denom := by
    unfold Text.Mon.denom
    split
    · norm_num
    · split <;> omega
  omega

theorem arrays_rows0 (names : List (List Char)) (tss : List (List Text.Mon)) :
    (Arrays.of ((rows0 names.length tss).map (List.map numPart))).lens = (gensOfQ names (tss.map (qqPoly names.length))).lens ∧
    (Arrays.of ((rows0 names.length tss).map (List.map numPart))).exps = (gensOfQ names (tss.map (qqPoly names.length))).exps ∧
    mpzOf (rows0 names.length tss) = (gensOfQ names (tss.map (qqPoly names.length))).mpz := by
  unfold Arrays.of gensOfQ rows0 mpzOf qqPoly
  refine ⟨?_, ?_, ?_⟩
  · simp only [List.map_map, Function.comp_def, List.length_map]
  · simp only [List.map_map, List.flatMap_map, Function.comp_def, numPart, ofFn_vec]
  · simp only [List.flatMap_map]

/-- The states between the restarts. -/
structure StateOk (names : List (List Char)) (g : Gens) (τ : Fin names.length → Fin g.nvars) : Prop where
  pos : 1 ≤ g.nvars
  name : ∀ i, g.vnames[(τ i).val]? = some (String.ofList names[i])
  len : g.vnames.length = g.nvars
  fc : g.fc = 0
  mem : ∀ s ∈ g.vnames, s = "A" ∨ ∃ nm ∈ names, s = String.ofList nm
  count : g.nvars = names.length ∨ g.nvars = names.length + 1
  nodup : ['A'] ∉ names → g.vnames.Nodup
  plain : g.lfbc = 0 → g.nvars = names.length
  form : 0 < g.lfbc → g.nvars = names.length + 1 ∧ ∀ i, (τ i).val = i.val
  back : ∀ {α : Type} (l : List α), l.length = g.nvars → (restore g l).length = names.length ∧ ∀ i, (restore g l)[i.val]? = l[(τ i).val]?

theorem forall₂_mapped {α β : Type*} {R : α → β → Prop} {φ : α → β} : ∀ {ts : List α}, (∀ t ∈ ts, R t (φ t)) → List.Forall₂ R ts (ts.map φ)
  | [], _ => .nil
  | _ :: _, h => .cons (h _ List.mem_cons_self) (forall₂_mapped fun t ht => h t (List.mem_cons_of_mem _ ht))

theorem sameBut_rows {n n' : ℕ} {σ : (Fin n → ℕ) → Fin n' → ℕ} {tss : List (List Text.Mon)} (hE : ∀ ts ∈ tss, ExpandedQ n ts) :
    List.Forall₂ (List.Forall₂ (SameBut n n' σ)) tss
      (tss.map fun ts => ts.map fun t => monOf ((t.numer, t.denom), σ (t.vec n))) := by
  refine forall₂_mapped fun ts hts => forall₂_mapped fun t ht => ⟨?_, ?_, ?_⟩
  · exact qMon_numer _ _ _ _ _
  · exact qMon_denom _ _ _ (denom_pos (hE ts hts) ht) _
  · rw [monOf_vec]

theorem systemQ {f : File} {names : List (List Char)} {tss : List (List Text.Mon)} (h : InputOkQ f names tss) : SystemQ names tss :=
  ⟨h.file.some, h.file.nodup, h.file.polys, h.file.terms, h.expanded⟩

theorem state_arraysQ {names : List (List Char)} {tss : List (List Text.Mon)} (h : SystemQ names tss) {g : Gens}
    (hI : Inv (gensOfQ names (tss.map (qqPoly names.length))) g) :
    ∃ (tss' : List (List Text.Mon)) (τ : Fin names.length → Fin g.nvars), Variant names.length tss g.nvars τ tss' ∧
      readGensQ g.nvars g.exps g.mpz 0 g.lens = some (tss'.map (qqPoly g.nvars)) ∧ StateOk names g τ := by
  obtain ⟨hl, he, hm⟩ := arrays_rows0 names tss
  have hpos : 0 < names.length := List.length_pos_iff.mpr h.some
  have hmem : ∀ s ∈ names.map String.ofList, s = "A" ∨ ∃ nm ∈ names, s = String.ofList nm := by
    intro s hs
    obtain ⟨nm, hnm, rfl⟩ := List.mem_map.mp hs
    exact Or.inr ⟨nm, hnm, rfl⟩
  have hnd : (names.map String.ofList).Nodup := h.nodup.map fun a b hab => by
    have := congrArg String.toList hab
    simpa using this
  have hread : ∀ {n : ℕ} (fs : List (List (QRow n))) {e m : List ℤ} {l : List ℕ}, (∀ f ∈ fs, ∀ t ∈ f, 0 < t.1.2) →
      (Arrays.of (fs.map (List.map numPart))).exps = e → mpzOf fs = m → (Arrays.of (fs.map (List.map numPart))).lens = l →
      readGensQ n e m 0 l = some ((fs.map (List.map monOf)).map (qqPoly n)) := by
    intro n fs e m l hp h1 h2 h3
    rw [← h1, ← h2, ← h3, readGensQ_of, List.map_map]
    congr 1
    apply List.map_congr_left
    intro f hf
    rw [Function.comp_apply, rawQ_monOf (hp f hf)]
  have hden : ∀ f ∈ rows0 names.length tss, ∀ t ∈ f, 0 < t.1.2 := by
    intro f hf t ht
    obtain ⟨ts, hts, rfl⟩ := List.mem_map.mp hf
    obtain ⟨u, hu, rfl⟩ := List.mem_map.mp ht
    exact denom_pos (h.expanded ts hts) hu
  set g0 := gensOfQ names (tss.map (qqPoly names.length)) with hg0
  have hn0 : g0.nvars = names.length := rfl
  have hv0 : g0.vnames = names.map String.ofList := rfl
  have hf0 : g0.fc = 0 := rfl
  rcases hI with rfl | ⟨c, hcn, rfl⟩ | ⟨v, hlf, hv, hE, -, hu, -⟩
  · refine ⟨tss, id, .same, ?_, by omega, ?_, by rw [hv0, hn0, List.length_map], rfl, hmem, Or.inl rfl, fun _ => hnd, fun _ => rfl, fun h => absurd h (lt_irrefl 0),
      fun l hl => ?_⟩
    · have := readGensQ_of (rows0 names.length tss)
      rw [he, hm, hl] at this
      refine this.trans ?_
      congr 1
      unfold rows0
      rw [List.map_map]
      apply List.map_congr_left
      intro ts _
      unfold rawQ qqPoly
      rw [Function.comp_apply, List.map_map]
      apply List.map_congr_left
      intro t _
      simp only [Function.comp_apply, ofFn_vec]
      rfl
    · intro i
      rw [hv0]
      simp
    · have hr : restore g0 l = l := by
        unfold restore
        rw [if_neg (show ¬ 0 < g0.lfbc from lt_irrefl 0), if_neg (fun h => h.1 rfl)]
      rw [hr]
      exact ⟨hl, fun i => rfl⟩
  · have hc1 : c < names.length := by rw [hn0] at hcn; omega
    set a : Fin names.length := ⟨names.length - 1, by omega⟩ with haa
    set b : Fin names.length := ⟨c, hc1⟩ with hbb
    have hget : ∀ i, (swapAt (names.map String.ofList) (names.length - 1) c)[i]? = (names.map String.ofList)[Equiv.swap (names.length - 1) c i]? :=
      swapAt_get (by rw [List.length_map]; omega) (by rw [List.length_map]; omega)
    set fs' : List (List (QRow names.length)) := (rows0 names.length tss).map fun f => f.map fun t => (t.1, t.2 ∘ Equiv.swap a b) with hfs'
    have hsw : fs'.map (List.map numPart) = swapTerms a b ((rows0 names.length tss).map (List.map numPart)) := by
      rw [hfs']
      unfold swapTerms
      simp only [List.map_map, Function.comp_def, numPart]
    refine ⟨fs'.map (List.map monOf), Equiv.swap a b, ?_, ?_, ?_⟩
    · have := sameBut_rows (σ := fun u => u ∘ Equiv.swap a b) h.expanded
      refine Variant.swapped a b ?_
      rw [hfs']
      unfold rows0
      simp only [List.map_map, Function.comp_def] at this ⊢
      exact this
    · change readGensQ names.length (swapExps names.length b g0.lens g0.exps) g0.mpz 0 g0.lens = _
      refine hread fs' ?_ ?_ ?_ ?_
      · intro f hf t ht
        obtain ⟨f0, hf0, rfl⟩ := List.mem_map.mp hf
        obtain ⟨u, hu, rfl⟩ := List.mem_map.mp ht
        exact hden f0 hf0 u hu
      · rw [hsw, ← swap_exps _ (a := a) rfl, hl, he]
      · rw [← hm, hfs']
        unfold mpzOf
        simp only [List.flatMap_map]
      · rw [hsw, (swap_rest a b _).1, hl]
    · refine ⟨by change 1 ≤ names.length; omega, ?_, ?_, rfl, ?_, Or.inl rfl, fun _ => ?_, fun _ => rfl, fun h => absurd h (lt_irrefl 0), fun l hl => ?_⟩
      · intro i
        change (swapAt (names.map String.ofList) (names.length - 1) c)[_]? = _
        rw [hget, swap_val, show Equiv.swap (names.length - 1) c (Equiv.swap a.val b.val i.val) = i.val from Equiv.swap_apply_self _ _ _]
        simp
      · change (swapAt (names.map String.ofList) (names.length - 1) c).length = names.length
        rw [swapAt_length, List.length_map]
      · intro s hs
        change s ∈ swapAt (names.map String.ofList) (names.length - 1) c at hs
        obtain ⟨i, hi⟩ := List.mem_iff_getElem?.mp hs
        rw [hget] at hi
        exact hmem s (List.mem_iff_getElem?.mpr ⟨_, hi⟩)
      · change (swapAt (names.map String.ofList) (names.length - 1) c).Nodup
        rw [List.nodup_iff_getElem?_ne_getElem?]
        intro i j hij hj heq
        rw [swapAt_length, List.length_map] at hj
        rw [hget, hget] at heq
        have hlt : Equiv.swap (names.length - 1) c i < (names.map String.ofList).length := by
          rw [List.length_map, Equiv.swap_apply_def]
          split_ifs <;> omega
        have := (List.getElem?_inj hlt hnd).mp heq
        exact absurd ((Equiv.swap _ _).injective this) (by omega)
      · have hr : restore { swapVars c g0 with cvo := (c : ℤ) } l = swapAt l (names.length - 1) c := by
          rw [hn0] at hcn
          exact (if_neg (show ¬ 0 < g0.lfbc from lt_irrefl 0)).trans (if_pos (show (c : ℤ) ≠ -1 ∧ (c : ℤ) ≠ (names.length : ℤ) - 1 by omega))
        have hl' : l.length = names.length := hl
        rw [hr, swapAt_length]
        refine ⟨hl', fun i => ?_⟩
        rw [swapAt_get (by omega) (by omega), swap_val]
  · obtain ⟨nv, fc, vn, lens, exps, cfs, mpz, _, _, _, _⟩ := g
    obtain ⟨e1, e2, e3, e4, e5, e6, -, e7⟩ := hE
    simp only at e1 e2 e3 e4 e5 e7
    have e7 := e7 hf0
    rw [hn0] at e1 e3 e5 e6 hv hu
    rw [hf0, Nat.cast_zero] at hv hu
    simp only [zero_dvd_iff] at hv hu
    subst e1
    have hvi : ∀ i, i < names.length + 1 → v.getD i 0 ≠ 0 := by
      intro i hi
      rcases Nat.lt_or_ge i names.length with h1 | h1
      · rcases hu i h1 with ⟨e, hd⟩ | hd
        · intro h0
          rw [h0, zero_sub, neg_eq_zero] at hd
          have := pow_ne_zero e (show ((i + 1 : ℕ) : ℤ) ≠ 0 by omega)
          exact this hd
        · exact hd
      · rwa [show i = names.length by omega]
    set fs' : List (List (QRow (names.length + 1))) := ((rows0 names.length tss).map fun f => f.map fun t => (t.1, Fin.snoc (α := fun _ => ℕ) t.2 0)) ++
      [List.ofFn fun j : Fin (names.length + 1) => ((v.getD j 0, 1), Pi.single j 1)] with hfs'
    have hsw : fs'.map (List.map numPart) = formTerms v ((rows0 names.length tss).map (List.map numPart)) := by
      rw [hfs']
      unfold formTerms
      simp only [List.map_append, List.map_map, Function.comp_def, numPart, List.map_cons, List.map_nil, List.map_ofFn]
    refine ⟨fs'.map (List.map monOf), Fin.castSucc, ?_, ?_, ?_⟩
    · have := sameBut_rows (σ := fun u => Fin.snoc (α := fun _ => ℕ) u 0) h.expanded
      rw [hfs', List.map_append]
      refine Variant.form (fun j => v.getD j 0) (fun j => hvi j j.2) ?_ ?_
      · unfold rows0
        simp only [List.map_map, Function.comp_def] at this ⊢
        exact this
      · rw [List.map_map, List.map_ofFn]
        congr 1
        funext j
        simp only [Function.comp_apply]
        rw [monOf_vec]
        unfold monOf
        rw [qMon_numer, qMon_denom _ _ _ one_pos]
    · refine hread fs' ?_ ?_ ?_ ?_
      · intro f hf t ht
        rcases List.mem_append.mp hf with hf | hf
        · obtain ⟨f0, hf0, rfl⟩ := List.mem_map.mp hf
          obtain ⟨u, hu, rfl⟩ := List.mem_map.mp ht
          exact hden f0 hf0 u hu
        · rw [List.mem_singleton] at hf
          subst hf
          obtain ⟨j, rfl⟩ := (List.mem_ofFn' _ _).mp ht
          exact one_pos
      · simp only
        rw [hsw, ← form_exps, hl, he, e5]
      · simp only
        rw [e7, ← hm, hfs']
        unfold mpzOf
        rw [List.flatMap_append]
        simp only [List.flatMap_map, List.flatMap_cons, List.flatMap_nil, List.append_nil]
        congr 1
        have h2 : (List.ofFn fun j : Fin (names.length + 1) => v.getD j 0) = v := by
          apply List.ext_getElem
          · rw [List.length_ofFn, e6]
          · intro i h1 h2
            rw [List.getElem_ofFn, List.getD_eq_getElem?_getD, List.getElem?_eq_getElem h2, Option.getD_some]
        conv_rhs => rw [← h2]
        rw [List.flatMap_def, List.flatMap_def, List.map_ofFn, List.map_ofFn]
        rfl
      · simp only
        rw [hsw, (form_rest e6 _).1, hl, e3]
    · refine ⟨by simp only; omega, ?_, ?_, e2, ?_, Or.inr rfl, ?_, fun h => absurd h (by simpa using hlf.ne'), fun _ => ⟨rfl, fun i => rfl⟩, fun l hl => ?_⟩
      · intro i
        simp only
        rw [e4, hv0, Fin.val_castSucc, List.getElem?_append_left (by simp)]
        simp
      · simp only
        rw [e4, hv0]
        simp
      · intro s hs
        simp only at hs
        rw [e4] at hs
        rcases List.mem_append.mp hs with hs | hs
        · exact hmem s hs
        · exact Or.inl (List.mem_singleton.mp hs)
      · intro hA
        simp only
        rw [e4, hv0]
        refine List.nodup_append.mpr ⟨hnd, List.nodup_singleton _, ?_⟩
        intro a ha b hb hab
        rw [List.mem_singleton] at hb
        obtain ⟨nm, hnm, rfl⟩ := List.mem_map.mp ha
        have := congrArg String.toList (hab.trans hb)
        rw [String.toList_ofList] at this
        rw [this] at hnm
        exact hA hnm
      · unfold restore
        rw [if_pos hlf]
        simp only at hl
        simp only [Nat.add_sub_cancel]
        refine ⟨by rw [List.length_take]; omega, fun i => ?_⟩
        rw [List.getElem?_take, if_pos i.2, Fin.val_castSucc]

end SolveQ
end Verif.Props
