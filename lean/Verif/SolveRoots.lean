import Verif.FglmParam
import Mathlib.FieldTheory.Extension
import Mathlib.FieldTheory.IsAlgClosed.Basic

/-! Roots of divisors of a minimal polynomial; the eliminating polynomial if it has not full degree. -/

namespace Verif.Solve

open Polynomial Verif.BM Verif.Spec Verif.Hankel Verif.LinForms Verif.Fglm

/-- Every root of a divisor of the minimal polynomial of `x` is the value of `x` at a point. -/
theorem root_extends {K A : Type*} [Field K] [CommRing A] [Algebra K A] [Module.Finite K A] {x : A} {w : K[X]} (hw : w ∣ minpoly K x)
    {L : Type*} [Field L] [Algebra K L] [IsAlgClosed L] {t : L} (ht : aeval t w = 0) : ∃ φ : A →ₐ[K] L, φ x = t := by
  have hint : IsIntegral K x := Algebra.IsIntegral.isIntegral x
  have hm0 := minpoly.ne_zero hint
  have hw0 : w ≠ 0 := fun h => hm0 (by rw [h] at hw; exact zero_dvd_iff.mp hw)
  have htint : IsIntegral K t := by
    rw [← isAlgebraic_iff_isIntegral]
    exact ⟨w, hw0, ht⟩
  set q := minpoly K t with hq
  have hqi : Irreducible q := minpoly.irreducible htint
  obtain ⟨h, hh⟩ := (minpoly.dvd K t ht).trans hw
  have hh0 : h ≠ 0 := fun h0 => hm0 (by rw [hh, h0, mul_zero])
  have hnu : aeval x q ∈ nonunits A := by
    intro hu
    have h1 : aeval x q * aeval x h = 0 := by rw [← map_mul, ← hh, minpoly.aeval]
    have h2 : aeval x h = 0 := (hu.mul_right_eq_zero).mp h1
    have h3 := natDegree_le_of_dvd (minpoly.dvd K x h2) hh0
    rw [hh, natDegree_mul hqi.ne_zero hh0] at h3
    have := hqi.natDegree_pos
    omega
  obtain ⟨M, hM, hmem⟩ := exists_max_ideal_of_mem_nonunits hnu
  let _ : Field (A ⧸ M) := Ideal.Quotient.field M
  have hx : aeval (Ideal.Quotient.mkₐ K M x) q = 0 := by
    rw [aeval_algHom_apply]
    exact Ideal.Quotient.eq_zero_iff_mem.mpr hmem
  have hmin : minpoly K (Ideal.Quotient.mkₐ K M x) = q :=
    (minpoly.eq_of_irreducible_of_monic hqi hx (minpoly.monic htint)).symm
  have hfin : Module.Finite K (A ⧸ M) := inferInstance
  obtain ⟨ψ, hψ⟩ := IntermediateField.exists_algHom_of_splits_of_aeval (F := K) (E := A ⧸ M) (K := L) (x := Ideal.Quotient.mkₐ K M x) (y := t)
    (fun s => ⟨Algebra.IsIntegral.isIntegral s, IsAlgClosed.splits _⟩) (by rw [hmin, minpoly.aeval])
  exact ⟨ψ.comp (Ideal.Quotient.mkₐ K M), hψ⟩

variable {K A : Type*} [Field K] [CommRing A] [Algebra K A] {n lml : ℕ} {P : ℕ → List ((Fin n → ℕ) × K)}

/-- Without full degree: not all variables are linear, and the eliminating polynomial divides the minimal polynomial of the last variable. -/
theorem nonshape_dvd (h : Reduced lml P) {last : Fin n} {x : Fin n → A}
    {mb : List (Fin n → ℕ)} (hs : mb.Pairwise Drl) (hmb : ∀ m, m ∈ mb ↔ ∀ i, i < lml → ¬ lead (P i) ≤ m) (h0 : 0 ∈ mb)
    (B : Module.Basis (Fin mb.length) K A) (hB : ∀ i, B i = ∏ j, x j ^ (mb.getD i 0) j) {M : Mat K}
    (hM : IsMulMat M (fun i => ∏ j, x j ^ (mb.getD i 0) j) (x last)) (hnc : M.ncols = mb.length)
    (vecinit vvec : ℕ → K) {hg : K[X] → K[X] → HM K} (hhg : HgcdOk hg) {sqf : List (K[X] × ℕ)}
    (hsqf : SqfOk (minPoly hg (M.pts vecinit vvec) mb.length) sqf) {elim : K[X]}
    (helim : elim = sqfPart (minPoly hg (M.pts vecinit vvec) mb.length) mb.length sqf)
    {xg : K[X] → K[X] → K[X] × K[X] × K[X]} (hxg : XgcdOk xg) {Z2 : K[X]}
    (hZ : invTable xg elim (minPoly hg (M.pts vecinit vvec) mb.length) (fun i => M.res vecinit vvec i 0) = some Z2) :
    elim ∣ minpoly K (x last) ∧ ((linVars n lml (lmRow P)).2 = n → mb.length = 1) := by
  classical
  have hlen : 0 < mb.length := List.length_pos_of_mem h0
  have hfinite : Module.Finite K A := Module.Finite.of_basis B
  have hfin : Module.finrank K A = mb.length := by rw [Module.finrank_eq_card_basis B, Fintype.card_fin]
  constructor
  · set l : A →ₗ[K] K := B.constr K (fun i : Fin mb.length => vecinit i) with hl
    have hlv : ∀ k, k < M.ncols → vecinit k = l (∏ j, x j ^ (mb.getD k 0) j) := by
      intro k hk
      have := hB ⟨k, by omega⟩
      rw [show ((⟨k, by omega⟩ : Fin mb.length) : ℕ) = k from rfl] at this
      rw [← this, hl, Module.Basis.constr_basis]
    have hb0 : mb.getD 0 0 = 0 := by
      obtain ⟨q, hq, he⟩ := List.mem_iff_getElem.mp h0
      have : q = 0 := by
        by_contra hne
        have h2 := List.pairwise_iff_getElem.mp hs 0 q (by omega) hq (by omega)
        rw [he] at h2
        by_cases h3 : mb[0] = 0
        · rw [h3] at h2
          exact Orders.drl_admissible.irrefl _ h2
        · exact Orders.drl_admissible.irrefl _ (Orders.drl_admissible.trans _ _ _ (Orders.drl_admissible.one_lt _ h3) h2)
      subst this
      rw [List.getD_eq_getElem?_getD, List.getElem?_eq_getElem hq, he]
      rfl
    have hseq : (fun i => M.res vecinit vvec i 0) = lseq l (x last) 1 := by
      have := res_eq hM l hlv vvec 0 (Or.inl ⟨rfl, by omega⟩)
      rw [this, if_pos rfl, hb0]
      simp
    have hpl : (M.pts vecinit vvec).length = 2 * mb.length := by rw [pts_length, hnc]
    have hpg : ∀ i, i < 2 * mb.length → (M.pts vecinit vvec).getD i 0 = lseq l (x last) 1 i := by
      intro i hi
      exact pts_getD hseq i (by omega)
    obtain ⟨hmin, hle⟩ := minPoly_seq hhg hfin hpl hpg
    have hVm : (minPoly hg (M.pts vecinit vvec) mb.length).Monic := by
      unfold minPoly
      simp only
      split_ifs
      · exact monic_X
      · exact hmin.1
    obtain ⟨e1, e2, e3, N, e4⟩ := sqfPart_spec hVm hsqf mb.length
    rw [← helim] at e1 e2 e3 e4
    have hdvd : elimPoly hg (M.pts vecinit vvec) mb.length ∣ minpoly K (x last) := hmin.2.2 _ (annih_of_aeval 1 (minpoly.aeval K (x last)))
    by_cases hc : (elimPoly hg (M.pts vecinit vvec) mb.length).natDegree = 0
    · exfalso
      have hone : elimPoly hg (M.pts vecinit vvec) mb.length = 1 := hmin.1.natDegree_eq_zero.mp hc
      have hzero : lseq l (x last) 1 = 0 := by
        have := (annihilates_iff _ _).mp hmin.2.1
        rwa [hone, act, map_one] at this
      have hV : minPoly hg (M.pts vecinit vvec) mb.length = X := by
        unfold minPoly
        simp only
        rw [if_pos hc]
      rw [hseq, hzero, hV] at hZ
      have htab : tablePoly (X : K[X]) 0 = 0 := by
        have := tablePoly_smul (X : K[X]) 0 (0 : ℕ → K)
        rwa [zero_smul, C_0, zero_mul] at this
      unfold invTable at hZ
      simp only [htab] at hZ
      split_ifs at hZ with hd
      have hbez := hxg.bez elim 0
      rw [mul_zero, add_zero] at hbez
      have hg0 : (xg elim 0).1.natDegree = 0 := by
        unfold dg at hd
        split_ifs at hd
        exact_mod_cast hd
      have hg1 : (xg elim 0).1 = 1 := (hxg.monic elim 0 (Or.inl e1.ne_zero)).natDegree_eq_zero.mp hg0
      have helim1 : elim ∣ 1 := ⟨_, by rw [← hg1, ← hbez, mul_comm]⟩
      rw [hV] at e4
      have hX : (X : K[X]) ∣ 1 := e4.trans (by simpa using pow_dvd_pow_of_dvd helim1 N)
      exact not_isUnit_X (isUnit_of_dvd_one hX)
    · have hV : minPoly hg (M.pts vecinit vvec) mb.length = elimPoly hg (M.pts vecinit vvec) mb.length := by
        unfold minPoly
        simp only
        rw [if_neg hc]
      exact (hV ▸ e3).trans hdvd
  · intro hr
    rw [nlins_spec h] at hr
    have hallc : ∀ k, LinVar lml P k := by
      unfold rank at hr
      intro k
      have h1 : (Finset.univ.filter fun k : Fin n => k.val < n ∧ LinVar lml P k) = Finset.univ :=
        Finset.eq_univ_of_card _ (by rw [hr, Fintype.card_fin])
      have h2 := Finset.mem_univ k
      rw [← h1, Finset.mem_filter] at h2
      exact h2.2.2
    have hall : ∀ m ∈ mb, m = 0 := by
      intro m hm
      funext k
      obtain ⟨i, hi, hv⟩ := hallc k
      have := (hmb m).mp hm i hi
      rw [hv] at this
      by_contra hk
      apply this
      intro j
      unfold Spec.var
      split_ifs with hj
      · rw [hj]
        exact Nat.one_le_iff_ne_zero.mpr hk
      · exact Nat.zero_le _
    have hnd : mb.Nodup := hs.imp fun {a b} hab => by
      rintro rfl
      exact Orders.drl_admissible.irrefl _ hab
    rcases mb with _ | ⟨a, _ | ⟨b, mb⟩⟩
    · simp at hlen
    · rfl
    · have ha := hall a (by simp)
      have hb := hall b (by simp)
      rw [ha, hb] at hnd
      simp at hnd

end Verif.Solve
