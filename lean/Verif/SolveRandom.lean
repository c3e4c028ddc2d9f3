import Verif.Solve
import Verif.SolveRoots
import Verif.RandomForm

/-! The result of a computation that is not in shape position, for most random vectors. -/

namespace Verif.Solve

open Polynomial Verif.BM Verif.Spec Verif.Hankel Verif.LinForms Verif.Fglm

section
variable {K A : Type*} [Field K] [CommRing A] [Algebra K A]

/-- The point over a root of the eliminating polynomial. -/
theorem point_of_coords [Module.Finite K A] {x : A} {ι : Type*} {a : ι → A} (hgen : Algebra.adjoin K (insert x (Set.range a)) = ⊤)
    {L : Type*} [Field L] [Algebra K L] {ξ : L} {q u : K[X]} (hq : Irreducible q) (hξ : aeval ξ q = 0) (hV : minpoly K x = q * u) {κ : ι → K[X]}
    (hκ : ∀ k, aeval x u * (a k - aeval x (κ k)) = 0) : ∃ φ : A →ₐ[K] L, φ x = ξ ∧ ∀ k, φ (a k) = aeval ξ (κ k) := by
  have hm : minpoly K x ≠ 0 := minpoly.ne_zero (Algebra.IsIntegral.isIntegral x)
  have hu0 : u ≠ 0 := by
    rintro rfl
    exact hm (by rw [hV, mul_zero])
  have hs : aeval x u ≠ 0 := by
    intro h0
    have h1 := natDegree_le_of_dvd (minpoly.dvd K x h0) hu0
    rw [hV, natDegree_mul hq.ne_zero hu0] at h1
    have := hq.natDegree_pos
    omega
  let J : Ideal A := Ideal.span ({aeval x u} : Set A) |>.annihilator
  have hJ : ∀ b, b ∈ J ↔ aeval x u * b = 0 := by
    intro b
    rw [Submodule.mem_annihilator_span_singleton, smul_eq_mul, mul_comm]
  have hJtop : J ≠ ⊤ := by
    intro h
    have := (hJ 1).mp (by rw [h]; trivial)
    rw [mul_one] at this
    exact hs this
  let π : A →ₐ[K] A ⧸ J := Ideal.Quotient.mkₐ K J
  have hπ : Function.Surjective π := Ideal.Quotient.mkₐ_surjective K J
  have hπk : ∀ k, π (a k) = aeval (π x) (κ k) := by
    intro k
    rw [aeval_algHom_apply, ← sub_eq_zero, ← map_sub]
    exact Ideal.Quotient.eq_zero_iff_mem.mpr ((hJ _).mpr (hκ k))
  let ψ : K[X] →ₐ[K] A ⧸ J := aeval (π x)
  have hψ : Function.Surjective ψ := by
    have h1 : π.range ≤ ψ.range := by
      rw [← Algebra.map_top, ← hgen, AlgHom.map_adjoin]
      refine Algebra.adjoin_le ?_
      rintro _ ⟨b, hb, rfl⟩
      rcases hb with rfl | ⟨k, rfl⟩
      · exact ⟨X, by simp [ψ]⟩
      · exact ⟨κ k, (hπk k).symm⟩
    intro b
    obtain ⟨c, rfl⟩ := hπ b
    exact h1 ⟨c, rfl⟩
  have hker : ∀ f, ψ f = 0 → aeval ξ f = 0 := by
    intro f hf
    have hqd : q ∣ f := by
      by_contra hnd
      obtain ⟨s, t, hst⟩ := (hq.coprime_iff_not_dvd.mpr hnd)
      have hq0 : ψ q = 0 := by
        show aeval (π x) q = 0
        rw [aeval_algHom_apply]
        refine Ideal.Quotient.eq_zero_iff_mem.mpr ((hJ _).mpr ?_)
        rw [← map_mul, mul_comm, ← hV, minpoly.aeval]
      have h1 := congrArg ψ hst
      rw [map_add, map_mul, map_mul, hf, hq0, mul_zero, mul_zero, add_zero, map_one] at h1
      have : Subsingleton (A ⧸ J) := subsingleton_of_zero_eq_one h1
      exact hJtop (Ideal.Quotient.subsingleton_iff.mp this)
    obtain ⟨c, rfl⟩ := hqd
    rw [map_mul, hξ, zero_mul]
  let Φ : A →ₐ[K] L := ((Ideal.Quotient.liftₐ (RingHom.ker ψ) (aeval ξ) fun f hf => hker f hf).comp
    (Ideal.quotientKerAlgEquivOfSurjective hψ).symm.toAlgHom).comp π
  have hΦ : ∀ b f, π b = ψ f → Φ b = aeval ξ f := by
    intro b f h
    show (Ideal.Quotient.liftₐ (RingHom.ker ψ) (aeval ξ) fun f hf => hker f hf) ((Ideal.quotientKerAlgEquivOfSurjective hψ).symm (π b)) = _
    have h2 : (Ideal.quotientKerAlgEquivOfSurjective hψ).symm (π b) = Ideal.Quotient.mk _ f := by
      rw [AlgEquiv.symm_apply_eq, h]
      rfl
    rw [h2]
    exact Ideal.Quotient.lift_mk _ _ _
  exact ⟨Φ, (hΦ x X (by simp [ψ])).trans (aeval_X ξ), fun k => hΦ _ _ (hπk k)⟩

/-- The computed coordinate at a root, if the coordinate is one of a solution there. -/
theorem coord_at_root {V e q u Z2 κ : K[X]} {l : A →ₗ[K] K} {x a : A} (hV0 : V ≠ 0) (hx : aeval x V = 0) (hqe : q ∣ e)
    (hV : V = q * u) (hZ : e ∣ Z2 * num V l x 1 - 1) (hκ : aeval x u * (a - aeval x κ) = 0) : q ∣ -coordTable e V Z2 (lseq l x a) - κ := by
  have h1 : q ∣ num V l x (a - aeval x κ * 1) := by
    rw [mul_one, num_dvd hV0 hV hx, hκ, lseq_eq_zero]
    simp
  have h2 := num_sub_aeval (l := l) hV hx 1 a κ
  have h3 : q ∣ num V l x a - κ * num V l x 1 := (dvd_sub_right h1).mp h2
  have h4 := hqe.trans (coordTable_mul (V := V) hZ (lseq l x a))
  have h5 : q ∣ (-coordTable e V Z2 (lseq l x a) - κ) * num V l x 1 := by
    have := dvd_sub h3 h4
    refine this.trans (dvd_of_eq ?_)
    unfold num
    ring
  have h6 : q ∣ (-coordTable e V Z2 (lseq l x a) - κ) * (Z2 * num V l x 1 - 1) := dvd_mul_of_dvd_right (hqe.trans hZ) _
  have h7 := dvd_sub (dvd_mul_of_dvd_right h5 Z2) h6
  refine h7.trans (dvd_of_eq ?_)
  ring

theorem invTable_some {xg : K[X] → K[X] → K[X] × K[X] × K[X]} (hxg : XgcdOk xg) {e V Z2 : K[X]} (he : e ≠ 0) {w : ℕ → K}
    (h : invTable xg e V w = some Z2) : e ∣ Z2 * tablePoly V w - 1 := by
  unfold invTable at h
  simp only at h
  split_ifs at h with hd
  obtain rfl := Option.some.inj h
  have hg0 : (xg e (tablePoly V w)).1.natDegree = 0 := by
    unfold dg at hd
    split_ifs at hd
    exact_mod_cast hd
  have hg1 : (xg e (tablePoly V w)).1 = 1 := (hxg.monic _ _ (Or.inl he)).natDegree_eq_zero.mp hg0
  have := hxg.bez e (tablePoly V w)
  rw [hg1] at this
  exact ⟨-(xg e (tablePoly V w)).2.1, by linear_combination this⟩

end

/-! ### Indices of squares -/

section
variable {n : ℕ} (lmb : List (Fin n → ℕ))

theorem squVars_spec (j : ℕ) (h : squVars lmb j ≠ 0) : ∃ hj : j < n, j < n - 1 ∧ squVars lmb j < lmb.length ∧
    lmb.getD (squVars lmb j) 0 = fun k => if k = ⟨j, hj⟩ then 2 else 0 := by
  have key : ∀ m ≤ lmb.length, ∀ j, (List.range m).foldl (squStep lmb) (fun _ => 0) j ≠ 0 →
      ∃ hj : j < n, j < n - 1 ∧ (List.range m).foldl (squStep lmb) (fun _ => 0) j < lmb.length ∧
        lmb.getD ((List.range m).foldl (squStep lmb) (fun _ => 0) j) 0 = fun k => if k = ⟨j, hj⟩ then 2 else 0 := by
    intro m
    induction m with
    | zero => intro _ j h; exact absurd rfl h
    | succ m ih =>
      intro hm j h
      rw [List.range_succ, List.foldl_append, List.foldl_cons, List.foldl_nil] at h ⊢
      generalize (List.range m).foldl (squStep lmb) (fun _ => 0) = s at *
      unfold squStep at h ⊢
      split_ifs at h ⊢ with hs
      · cases hf : (List.range (n - 1)).find? fun j => decide (Orders.ext (lmb.getD m 0) j = 2) with
        | some j' =>
          simp only [hf] at h ⊢
          by_cases hjj : j = j'
          · subst hjj
            simp only [Function.update_self] at h ⊢
            have h1 := List.find?_some hf
            have h2 := List.mem_of_find?_eq_some hf
            simp only [decide_eq_true_eq] at h1
            rw [List.mem_range] at h2
            refine ⟨by omega, h2, by omega, ?_⟩
            have hj : j < n := by omega
            have h3 : (lmb.getD m 0) ⟨j, hj⟩ = 2 := by
              simpa [Orders.ext, hj] using h1
            funext k
            split_ifs with hk
            · rw [hk, h3]
            · have h4 := Finset.add_sum_erase Finset.univ (fun i => (lmb.getD m 0) i) (Finset.mem_univ (⟨j, hj⟩ : Fin n))
              simp only [h3] at h4
              have h5 : ∑ i ∈ Finset.univ.erase (⟨j, hj⟩ : Fin n), (lmb.getD m 0) i = 0 := by omega
              exact Finset.sum_eq_zero_iff.mp h5 k (Finset.mem_erase.mpr ⟨hk, Finset.mem_univ _⟩)
          · rw [Function.update_of_ne hjj] at h ⊢
            exact ih (by omega) j h
        | none =>
          simp only [hf] at h ⊢
          exact ih (by omega) j h
      · exact ih (by omega) j h
  exact key _ le_rfl j h

end

/-! ### Composition -/

section
variable {K : Type*} [Field K]

theorem tableLoop_nolin (elim V Z2 : K[X]) (res : ℕ → ℕ → K) {linvars : ℕ → ℕ} {nv : ℕ} (h : ∀ k, k < nv - 1 → linvars k = 0) {k : ℕ}
    (hk : k < nv - 1) : tableLoop elim V Z2 res linvars nv k = coordTable elim V Z2 fun i => res i (nv - 1 - k) := by
  have key : ∀ m ≤ nv - 1, ((List.range m).foldl (tableStep elim V Z2 res linvars nv) (fun _ => 0, 0)).2 = 0 ∧
      ∀ k, k < nv - 1 → nv - 1 - m ≤ k →
        ((List.range m).foldl (tableStep elim V Z2 res linvars nv) (fun _ => 0, 0)).1 k = coordTable elim V Z2 fun i => res i (nv - 1 - k) := by
    intro m
    induction m with
    | zero => exact fun _ => ⟨rfl, fun k hk hk' => absurd hk' (by omega)⟩
    | succ m ih =>
      intro hm
      obtain ⟨h1, h2⟩ := ih (by omega)
      rw [List.range_succ, List.foldl_append, List.foldl_cons, List.foldl_nil]
      generalize (List.range m).foldl (tableStep elim V Z2 res linvars nv) (fun _ => 0, 0) = s at *
      unfold tableStep
      rw [if_pos (h _ (by omega))]
      refine ⟨h1, fun k hk hk' => ?_⟩
      simp only
      by_cases he : k = nv - 2 - m
      · rw [he, Function.update_self, h1]
        rw [show nv - 1 - (nv - 2 - m) = m + 1 - 0 by omega]
      · rw [Function.update_of_ne he]
        exact h2 k hk (by omega)
  exact (key _ le_rfl).2 k hk (by omega)

theorem decAt_nolin {linvars : ℕ → ℕ} {nv nc : ℕ} (h : ∀ k, k < nv - 1 → linvars k = 0) (hnc : nc < nv - 1) : decAt linvars nv nc = 0 := by
  unfold decAt
  rw [List.length_eq_zero_iff, List.filter_eq_nil_iff]
  intro j hj
  rw [List.mem_range] at hj
  simp [h (nv - 2 - j) (by omega)]

theorem setLinear_nolin {nlins : ℕ} {linvars : ℕ → ℕ} {nv : ℕ} (h : ∀ k, k < nv - 1 → linvars k = 0) (hne : nlins ≠ nv) (lineqs : ℕ → K)
    (elim : K[X]) (coords : ℕ → K[X]) : setLinear nlins linvars lineqs nv elim coords = (elim, coords) := by
  unfold setLinear
  simp only [if_neg hne]
  congr 1
  have : ∀ (l : List ℕ) (s : (ℕ → K[X]) × ℕ), (∀ k ∈ l, k < nv - 1) → l.foldl (setStep elim nv nlins linvars lineqs) s = s := by
    intro l
    induction l with
    | nil => exact fun s _ => rfl
    | cons k l ih =>
      intro s hl
      rw [List.foldl_cons]
      have : setStep elim nv nlins linvars lineqs s k = s := by
        unfold setStep
        rw [if_neg (by rw [h k (hl k (by simp))]; simp)]
      rw [this]
      exact ih s fun k hk => hl k (by simp [hk])
  rw [this]
  intro k hk
  simpa using hk

variable {A : Type*} [CommRing A] [Algebra K A] {n lml : ℕ} {P : ℕ → List ((Fin n → ℕ) × K)}

/-- The variables generate the algebra. -/
theorem gen_top {mb : List (Fin n → ℕ)} {x : Fin n → A} (B : Module.Basis (Fin mb.length) K A) (hB : ∀ i, B i = ∏ j, x j ^ (mb.getD i 0) j)
    {last : Fin n} (hlast : last.val = n - 1) :
    Algebra.adjoin K (insert (x last) (Set.range fun k : Fin (n - 1) => x ⟨k, by omega⟩)) = ⊤ := by
  rw [eq_top_iff]
  have hx : ∀ j, x j ∈ Algebra.adjoin K (insert (x last) (Set.range fun k : Fin (n - 1) => x ⟨k, by omega⟩)) := by
    intro j
    apply Algebra.subset_adjoin
    by_cases hj : j = last
    · exact Or.inl (by rw [hj])
    · exact Or.inr ⟨⟨j, by have : j.val ≠ last.val := fun h => hj (Fin.ext h); omega⟩, rfl⟩
  intro a _
  rw [← B.sum_repr a]
  refine sum_mem fun i _ => Subalgebra.smul_mem _ ?_ _
  rw [hB]
  exact prod_mem fun j _ => pow_mem (hx j) _

/-- A computation that is not in shape position and ends with a parametrization, all squares being verified: for all but a fraction of at most
`(3 (n - 1) + 1) D / |K|` of the random vectors each root of the eliminating polynomial with the coordinates computed for it is a point. -/
theorem fglm_random [Fintype K] {n : ℕ} (last : Fin n) (x : Fin n → A) {mb : List (Fin n → ℕ)} (hlen : 0 < mb.length)
    (B : Module.Basis (Fin mb.length) K A) (hB : ∀ i, B i = ∏ j, x j ^ (mb.getD i 0) j) (lam : ℕ → K) :
    ∃ S : Finset (Fin mb.length → K), Fintype.card K * S.card ≤ (3 * (n - 1) + 1) * mb.length * Fintype.card K ^ mb.length ∧
      ∀ (lml : ℕ) (P : ℕ → List ((Fin n → ℕ) × K)), Reduced lml P → (∀ i, i < lml → ∀ s, (P i).head? = some s → s.2 = 1) →
        last.val = n - 1 → (∀ i, i < lml → evalAt (P i) x = 0) → mb.Pairwise Drl → (∀ m, m ∈ mb ↔ ∀ i, i < lml → ¬ lead (P i) ≤ m) → 0 ∈ mb →
        ∀ M : Mat K, IsMulMat M (fun i => ∏ j, x j ^ (mb.getD i 0) j) (x last) → M.ncols = mb.length →
        ∀ vecinit : ℕ → K, (fun i : Fin mb.length => vecinit i) ∉ S → ∀ (vvec : ℕ → K) (hg : K[X] → K[X] → HM K) (sqf : List (K[X] × ℕ))
        (xg : K[X] → K[X] → K[X] × K[X] × K[X]) (lineqs : ℕ → K) (inv : Hankel.Inv K), HgcdOk hg →
        SqfOk (minPoly hg (M.pts vecinit vvec) mb.length) sqf → XgcdOk xg →
        ∀ elim, elim = sqfPart (minPoly hg (M.pts vecinit vvec) mb.length) mb.length sqf → elim.natDegree ≠ mb.length →
        (linVars n lml (lmRow P)).2 ≠ n → ∀ (d : ℕ) (w : K[X]) (cs : ℕ → K[X]),
        fglm (linVars n lml (lmRow P)).2 (linVars n lml (lmRow P)).1 lineqs (squVars mb) (M.res vecinit vvec) (M.resSq vecinit vvec) inv
          (minPoly hg (M.pts vecinit vvec) mb.length) elim xg lam n mb.length true = some (.ok d w cs) →
        (∃ N, minpoly K (x last) ∣ w ^ N) ∧ ∀ (L : Type) [Field L] [Algebra K L] (ξ : L), aeval ξ w = 0 →
          ∃ φ : A →ₐ[K] L, φ (x last) = ξ ∧ ∀ k : Fin n, k < last → φ (x k) = -aeval ξ (cs k) := by
  classical
  have hfinite : Module.Finite K A := Module.Finite.of_basis B
  have hfin : Module.finrank K A = mb.length := by rw [Module.finrank_eq_card_basis B, Fintype.card_fin]
  have hnt : Nontrivial A := by
    refine Module.nontrivial_of_finrank_pos (R := K) ?_
    omega
  obtain ⟨S, hS, hgood⟩ := bad_vectors B (x last) (m := n - 1) (fun k => ∏ j, x j ^ (mb.getD (n - k) 0) j)
    (fun k => ∏ j, x j ^ (mb.getD (squVars mb k) 0) j) (fun k => lam (n - 2 - k))
  refine ⟨S, hS, ?_⟩
  intro lml P h hmon hlast hx hs hmb h0 M hM hnc vecinit hv vvec hg sqf xg lineqs inv hhg hsqf hxg elim helim hdeg hnl d w cs hok
  obtain ⟨hminp, hcoord⟩ := hgood _ hv
  set l : A →ₗ[K] K := formOf B (fun i : Fin mb.length => vecinit i) with hl
  have hlv : ∀ k, k < M.ncols → vecinit k = l (∏ j, x j ^ (mb.getD k 0) j) := by
    intro k hk
    have := hB ⟨k, by omega⟩
    rw [show ((⟨k, by omega⟩ : Fin mb.length) : ℕ) = k from rfl] at this
    rw [← this, hl, formOf, Module.Basis.constr_basis]
  have hb0 : mb.getD 0 0 = 0 := by
    obtain ⟨q, hq, he⟩ := List.mem_iff_getElem.mp h0
    have : q = 0 := by
      by_contra hne
      have h2 := List.pairwise_iff_getElem.mp hs 0 q (by omega) hq (by omega)
      rw [he] at h2
      by_cases h3 : mb[0] = 0
      · rw [h3] at h2
        exact Orders.drl_admissible.irrefl _ h2
      · exact Orders.drl_admissible.irrefl _ (Orders.drl_admissible.trans _ _ _ (Orders.drl_admissible.one_lt _ h3) h2)
    subst this
    rw [List.getD_eq_getElem?_getD, List.getElem?_eq_getElem hq, he]
    rfl
  have hseq : (fun i => M.res vecinit vvec i 0) = lseq l (x last) 1 := by
    have := res_eq hM l hlv vvec 0 (Or.inl ⟨rfl, by omega⟩)
    rw [this, if_pos rfl, hb0]
    simp
  have hpl : (M.pts vecinit vvec).length = 2 * mb.length := by rw [pts_length, hnc]
  have hpg : ∀ i, i < 2 * mb.length → (M.pts vecinit vvec).getD i 0 = lseq l (x last) 1 i := by
    intro i hi
    exact pts_getD hseq i (by omega)
  obtain ⟨hmin, hle⟩ := minPoly_seq hhg hfin hpl hpg
  have hVeq : elimPoly hg (M.pts vecinit vvec) mb.length = minpoly K (x last) :=
    eq_of_monic_of_associated hmin.1 hminp.1 (associated_of_dvd_dvd (hmin.2.2 _ hminp.2.1) (hminp.2.2 _ hmin.2.1))
  have hpos : 0 < (minpoly K (x last)).natDegree := minpoly.natDegree_pos (Algebra.IsIntegral.isIntegral _)
  have hV : minPoly hg (M.pts vecinit vvec) mb.length = minpoly K (x last) := by
    unfold minPoly
    simp only
    rw [if_neg (by rw [hVeq]; omega), hVeq]
  rw [hV] at hsqf helim hok
  obtain ⟨e1, e2, e3, N, e4⟩ := sqfPart_spec hminp.1 hsqf mb.length
  rw [← helim] at e1 e2 e3 e4
  have hV0 := hminp.1.ne_zero
  have hVx : aeval (x last) (minpoly K (x last)) = 0 := minpoly.aeval K (x last)
  -- the branches
  unfold fglm at hok
  rw [if_neg hdeg] at hok
  split at hok
  · exact absurd (Option.some.inj hok) (by simp)
  rename_i Z2 hZ
  simp only at hok
  split_ifs at hok with b1 b2 b3
  · exact absurd (Option.some.inj hok) (by simp)
  · exact absurd (Option.some.inj hok) (by simp)
  have hfst : (setLinear (linVars n lml (lmRow P)).2 (linVars n lml (lmRow P)).1 lineqs n elim
      (tableLoop elim (minpoly K (x last)) Z2 (M.res vecinit vvec) (linVars n lml (lmRow P)).1 n)).1 = elim := by
    unfold setLinear
    simp only [if_neg hnl]
  rw [hfst] at b3
  have hsq : ∀ i, i < n - 1 → squVars mb i ≠ 0 := by
    intro i hi hc
    exact b3 ⟨hdeg, trivial, i, hi, hc⟩
  have hnolin : ∀ k : Fin n, k.val < n - 1 → ¬ LinVar lml P k := by
    rintro k hk ⟨i, hi, he⟩
    obtain ⟨hj, -, s1, s2⟩ := squVars_spec mb k (hsq k hk)
    have hmem : mb.getD (squVars mb k) 0 ∈ mb := by
      rw [List.getD_eq_getElem _ _ s1]
      exact List.getElem_mem _
    apply (hmb _).mp hmem i hi
    rw [he, s2]
    intro j
    by_cases hjk : j = k
    · subst hjk
      simp [Spec.var]
    · simp [Spec.var, hjk]
  have hlin0 : ∀ k, k < n - 1 → (linVars n lml (lmRow P)).1 k = 0 := by
    intro k hk
    exact ((linVars_spec h ⟨k, by omega⟩).2).mpr fun i' hi' he => hnolin ⟨k, by omega⟩ hk ⟨i', hi', he⟩
  rw [setLinear_nolin hlin0 hnl] at hok
  have hok := Option.some.inj hok
  simp only [Att.ok.injEq] at hok
  obtain ⟨-, rfl, rfl⟩ := hok
  -- length of the basis
  have hbig : ∀ k : Fin n, k.val < n - 1 → n < mb.length := by
    intro k hk
    have hsub : insert (0 : Fin n → ℕ) (insert (mb.getD (squVars mb k) 0)
        ((Finset.univ.filter fun k : Fin n => k.val < n - 1).image (Spec.var : Fin n → Fin n → ℕ))) ⊆ mb.toFinset := by
      intro u hu
      simp only [Finset.mem_insert, Finset.mem_image, Finset.mem_filter, Finset.mem_univ, true_and] at hu
      rw [List.mem_toFinset]
      obtain ⟨hj, -, s1, s2⟩ := squVars_spec mb k (hsq k hk)
      rcases hu with rfl | rfl | ⟨i, hi, rfl⟩
      · exact h0
      · rw [List.getD_eq_getElem _ _ s1]
        exact List.getElem_mem _
      · exact (hmb _).mpr ((std_var ((hmb 0).mp h0) i).mpr (hnolin i hi))
    have hcard := Finset.card_le_card hsub
    obtain ⟨hj, -, s1, s2⟩ := squVars_spec mb k (hsq k hk)
    have hsum : ∑ i, (mb.getD (squVars mb k) 0) i = 2 := by
      rw [s2]
      simp
    rw [Finset.card_insert_of_notMem, Finset.card_insert_of_notMem, Finset.card_image_of_injective _ fun a b => var_inj] at hcard
    · have hc : (Finset.univ.filter fun k : Fin n => k.val < n - 1).card = n - 1 := by
        have : (Finset.univ.filter fun k : Fin n => k.val < n - 1) = Finset.univ.erase last := by
          ext k
          simp only [Finset.mem_filter, Finset.mem_univ, true_and, Finset.mem_erase, and_true]
          constructor
          · rintro h rfl
            omega
          · intro h
            have : k.val ≠ last.val := fun hc => h (Fin.ext hc)
            omega
        rw [this, Finset.card_erase_of_mem (Finset.mem_univ _), Finset.card_univ, Fintype.card_fin]
      rw [hc] at hcard
      have := List.toFinset_card_le mb
      omega
    · rw [Finset.mem_image]
      rintro ⟨i, -, hi⟩
      rw [← hi, sum_var] at hsum
      omega
    · rw [Finset.mem_insert, Finset.mem_image]
      rintro (hi | ⟨i, -, hi⟩)
      · rw [← hi] at hsum
        simp at hsum
      · exact var_ne_zero i hi
  have hcol : ∀ k, k < n - 1 → (fun i => M.res vecinit vvec i (n - 1 - k)) = lseq l (x last) (∏ j, x j ^ (mb.getD (n - k) 0) j) := by
    intro k hk
    have := hbig ⟨k, by omega⟩ hk
    have := res_eq hM l hlv vvec (n - 1 - k) (Or.inr (by omega))
    rw [if_neg (by omega), show n - 1 - k + 1 = n - k by omega] at this
    exact this
  have hcs : ∀ k, k < n - 1 → tableLoop elim (minpoly K (x last)) Z2 (M.res vecinit vvec) (linVars n lml (lmRow P)).1 n k =
      coordTable elim (minpoly K (x last)) Z2 (lseq l (x last) (∏ j, x j ^ (mb.getD (n - k) 0) j)) := by
    intro k hk
    rw [tableLoop_nolin _ _ _ _ hlin0 hk, hcol k hk]
  rw [hseq] at hZ
  have hZ' : elim ∣ Z2 * num (minpoly K (x last)) l (x last) 1 - 1 := invTable_some hxg e1.ne_zero hZ
  have hHas : ∀ k : Fin (n - 1), ∀ q, Irreducible q → q.Monic → q ∣ minpoly K (x last) →
      HasCoord (minpoly K (x last)) (x last) (∏ j, x j ^ (mb.getD (n - k) 0) j) q := by
    intro k
    refine hcoord k xg elim Z2 hxg e2 e3 ⟨N, e4⟩ hZ' ?_
    by_contra hnv
    apply b2
    refine ⟨n - 2 - k, by omega, hlin0 _ (by omega), hsq _ (by omega), ?_⟩
    rw [decAt_nolin hlin0 (by omega), show n - 2 - (n - 2 - k.val) = k by omega, show n - 2 - k.val + 1 - 0 = n - 1 - k by omega, hcs k k.2, hcol k k.2,
      hseq]
    have hsqc : (fun i => M.resSq vecinit vvec i (squVars mb k)) = lseq l (x last) (∏ j, x j ^ (mb.getD (squVars mb k) 0) j) := by
      obtain ⟨hj, -, s1, s2⟩ := squVars_spec mb k (hsq k k.2)
      funext i
      rw [Mat.resSq, iter_spec hM l hlv vvec i _ (by omega)]
      rfl
    rw [hsqc]
    exact hnv
  refine ⟨⟨N, e4⟩, fun L _ _ ξ hξ => ?_⟩
  have hn : 0 < n := lt_of_le_of_lt (Nat.zero_le _) last.2
  -- the last variable is not linear
  have hll : ¬ LinVar lml P last := by
    rintro ⟨i, hi, he⟩
    have h1 := minpoly_linear (last_linear h hmon hlast hx hi he)
    rcases Nat.lt_or_ge 0 (n - 1) with hn1 | hn1
    · have hb := hbig ⟨0, hn⟩ hn1
      have hirr : Irreducible (minpoly K (x last)) := by
        rw [← h1]
        exact irreducible_of_degree_eq_one (degree_X_add_C _)
      obtain ⟨u, κ, hu, hκ⟩ := hHas ⟨0, hn1⟩ _ hirr hminp.1 dvd_rfl
      have hu1 : u = 1 := mul_left_cancel₀ hV0 (by rw [← hu, mul_one])
      rw [hu1, map_one, one_mul, sub_eq_zero] at hκ
      have hxl : x last = algebraMap K A (-coeffAt (P i) 0) := by
        rw [map_neg]
        exact eq_neg_of_add_eq_zero_left (last_linear h hmon hlast hx hi he)
      have h2 : aeval (x last) κ = (κ.eval (-coeffAt (P i) 0)) • (1 : A) := by
        rw [hxl, aeval_algebraMap_apply, Algebra.smul_def, mul_one, coe_aeval_eq_eval]
      rw [h2] at hκ
      have h3 : B ⟨n, hb⟩ = (κ.eval (-coeffAt (P i) 0)) • B ⟨0, hlen⟩ := by
        rw [hB, hB]
        simp only [Nat.sub_zero] at hκ
        rw [hκ, hb0]
        simp
      have h4 := congrArg (fun b => B.repr b ⟨n, hb⟩) h3
      have hne : (⟨0, hlen⟩ : _root_.Fin mb.length) ≠ ⟨n, hb⟩ := by
        rw [Ne, Fin.mk.injEq]
        omega
      simp only [map_smul, Module.Basis.repr_self, Finsupp.smul_apply, Finsupp.single_eq_same] at h4
      rw [Finsupp.single_eq_of_ne hne.symm, smul_zero] at h4
      exact one_ne_zero h4
    · apply hnl
      rw [nlins_spec h]
      unfold rank
      have : (Finset.univ.filter fun k : Fin n => k.val < n ∧ LinVar lml P k) = Finset.univ := by
        ext k
        simp only [Finset.mem_filter, Finset.mem_univ, true_and, iff_true]
        have : k = last := Fin.ext (by omega)
        exact ⟨k.2, this ▸ ⟨i, hi, he⟩⟩
      rw [this, Finset.card_univ, Fintype.card_fin]
  have hxk : ∀ k : Fin (n - 1), ∏ j, x j ^ (mb.getD (n - k) 0) j = x ⟨k, by omega⟩ := by
    intro k
    obtain ⟨hb1, hb2⟩ := basis_index hs hmb (v := ⟨k, by omega⟩) hlast (by rw [Fin.lt_def]; simp only; omega) hll (hnolin ⟨k, by omega⟩ k.2) h0
    have hnf : nonlinFrom lml P ((⟨k, by omega⟩ : Fin n).val + 1) + 2 = n - k := by
      unfold nonlinFrom
      have : (Finset.univ.filter fun j : Fin n => (⟨k, by omega⟩ : Fin n).val + 1 ≤ j.val ∧ j.val < n - 1 ∧ ¬ LinVar lml P j) =
          Finset.Ioo (⟨k, by omega⟩ : Fin n) last := by
        ext j
        simp only [Finset.mem_filter, Finset.mem_univ, true_and, Finset.mem_Ioo, Fin.lt_def]
        constructor
        · rintro ⟨c1, c2, -⟩
          exact ⟨by omega, by omega⟩
        · rintro ⟨c1, c2⟩
          exact ⟨by omega, by omega, hnolin j (by omega)⟩
      convert congrArg (fun s => s.card + 2) this using 1
      rw [Fin.card_Ioo]
      simp only
      omega
    rw [hnf] at hb2
    rw [hb2, prod_var]
  have hqint : IsIntegral K ξ := by
    rw [← isAlgebraic_iff_isIntegral]
    exact ⟨_, e1.ne_zero, hξ⟩
  have hqe : minpoly K ξ ∣ elim := minpoly.dvd K ξ hξ
  have hqi := minpoly.irreducible hqint
  obtain ⟨u, hu⟩ := hqe.trans e3
  have hHas' : ∀ k : Fin (n - 1), ∃ κ : K[X], aeval (x last) u * (x ⟨k, by omega⟩ - aeval (x last) κ) = 0 := by
    intro k
    obtain ⟨u', κ, hu', hκ⟩ := hHas k _ hqi (minpoly.monic hqint) (hqe.trans e3)
    have : u' = u := mul_left_cancel₀ hqi.ne_zero (by rw [← hu', hu])
    rw [this, hxk] at hκ
    exact ⟨κ, hκ⟩
  choose κ hκ using hHas'
  obtain ⟨φ, p1, p2⟩ := point_of_coords (gen_top B hB hlast) hqi (minpoly.aeval K ξ) hu hκ
  refine ⟨φ, p1, fun k hk => ?_⟩
  have hk' : k.val < n - 1 := by rw [Fin.lt_def] at hk; omega
  rw [show x k = x ⟨(⟨k, hk'⟩ : Fin (n - 1)), by omega⟩ from rfl, p2 ⟨k, hk'⟩, hcs k hk']
  have hxk' := hxk ⟨k, hk'⟩
  simp only at hxk'
  rw [hxk']
  obtain ⟨c, hc⟩ := coord_at_root hV0 hVx hqe hu hZ' (hκ ⟨k, hk'⟩)
  have h1 := congrArg (aeval ξ) hc
  rw [map_mul, minpoly.aeval, zero_mul, map_sub, map_neg, sub_eq_zero] at h1
  exact h1.symm

end

end Verif.Solve

namespace Verif.Solve

open Polynomial Verif.F4 Verif.Pairs Verif.Spec Verif.MulMatrix Verif.Fglm Verif.BM Verif.Hankel Verif.LinForms Verif.VarOrder Verif.Output
open Verif.ExportF4 (readGens Basis)
open Verif.Props (fieldPoly)

variable {n : ℕ}

/-! ### Computations with given random elements -/

/-- `Outcome` with the random elements `vecinit` (fglm_core.c 1474-1478, 1495-1500) and `lam` (1300). -/
def OutcomeV (p : ℕ) [Fact p.Prime] (us : ℤ) (chk : Bool) (G : List (Poly n)) (vecinit lam : ℕ → ZMod p) (a : Att (ZMod p)) : Prop :=
  if G.length = 1 ∧ F4.lead (G.getD 0 []) = 0 then a = .empty
  else if Hilbert.hasDimensionZero (G.map F4.lead) = false then a = .positive
  else ∃ (fuel : ℕ) (lmb : List (Mon n)) (nf : List (Poly n) → List (Option (Poly n))) (last : Fin n),
    Hilbert.monomialBasis (G.map F4.lead) fuel = .done lmb ∧
    (∀ tbr, (∀ f ∈ tbr, InPoly p f) → NfRun .drl p G (List.range G.length) tbr (nf tbr)) ∧ last.val = n - 1 ∧
    ((build p last us G lmb nf = .error .null ∧ a = .failed) ∨
      ∃ M, build p last us G lmb nf = .ok M ∧ p ≠ 2 ∧ p < 1518500213 ∧
        ∃ (ev0 : ℕ → ℕ) (vvec : ℕ → ZMod p) (hg : (ZMod p)[X] → (ZMod p)[X] → HM (ZMod p)) (sqf : List ((ZMod p)[X] × ℕ))
          (xg : (ZMod p)[X] → (ZMod p)[X] → (ZMod p)[X] × (ZMod p)[X] × (ZMod p)[X]),
          let P := fun i => fieldPoly p (G.getD i [])
          let V := minPoly hg ((M.toMat p).pts vecinit vvec) lmb.length
          let lv := linVars n G.length (fun i j => Orders.ext (Spec.lead (P i)) j)
          HgcdOk hg ∧ SqfOk V sqf ∧ XgcdOk xg ∧
          fglm lv.2 lv.1 (rows slotCheck n (fun j => (P j).map fun t => (Orders.setEv n 0 (Orders.ext t.1) ev0, t.2)) lv.1)
            (squVars lmb) ((M.toMat p).res vecinit vvec) ((M.toMat p).resSq vecinit vvec) (invert hg ((M.toMat p).pts vecinit vvec) lmb.length)
            V (sqfPart V lmb.length sqf) xg lam n lmb.length chk = some a)

theorem outcomeV_iff {p : ℕ} [hp : Fact p.Prime] {us : ℤ} {chk : Bool} {G : List (Poly n)} {a : Att (ZMod p)} :
    Outcome p us chk G a ↔ ∃ vecinit lam, (∀ i, lam i ≠ 0) ∧ OutcomeV p us chk G vecinit lam a := by
  unfold Outcome OutcomeV
  split_ifs with h1 h2
  · exact ⟨fun h => ⟨fun _ => 0, fun _ => 1, fun _ => one_ne_zero, h⟩, fun ⟨_, _, _, h⟩ => h⟩
  · exact ⟨fun h => ⟨fun _ => 0, fun _ => 1, fun _ => one_ne_zero, h⟩, fun ⟨_, _, _, h⟩ => h⟩
  · constructor
    · rintro ⟨fuel, lmb, nf, last, a1, a2, a3, ⟨a4, a5⟩ | ⟨M, b1, b2, b3, ev0, v, vv, hg, sqf, xg, lam, b4, b5, b6, b7, b8⟩⟩
      · exact ⟨fun _ => 0, fun _ => 1, fun _ => one_ne_zero, fuel, lmb, nf, last, a1, a2, a3, Or.inl ⟨a4, a5⟩⟩
      · exact ⟨v, lam, b7, fuel, lmb, nf, last, a1, a2, a3, Or.inr ⟨M, b1, b2, b3, ev0, vv, hg, sqf, xg, b4, b5, b6, b8⟩⟩
    · rintro ⟨v, lam, b7, fuel, lmb, nf, last, a1, a2, a3, ⟨a4, a5⟩ | ⟨M, b1, b2, b3, ev0, vv, hg, sqf, xg, b4, b5, b6, b8⟩⟩
      · exact ⟨fuel, lmb, nf, last, a1, a2, a3, Or.inl ⟨a4, a5⟩⟩
      · exact ⟨fuel, lmb, nf, last, a1, a2, a3, Or.inr ⟨M, b1, b2, b3, ev0, v, vv, hg, sqf, xg, lam, b4, b5, b6, b7, b8⟩⟩

/-- `Attempt` with the random elements `vecinit` and `lam`. -/
def AttemptV (p : ℕ) [Fact p.Prime] (us : ℤ) (g : Gens) (chk : Bool) (vecinit lam : ℕ → ZMod p) (a : Att (ZMod p)) : Prop :=
  ∃ (gens : List (List (ℤ × List ℤ))) (G : List (Poly g.nvars)), readGens g.nvars g.exps g.cfs 0 g.lens = some gens ∧
    Basis 0 0 p true gens G ∧ OutcomeV p us chk G vecinit lam a

/-- `Run` with the state `g`, `chk` before the last computation and the random elements `vecinit` and `lam` in it. -/
def RunV (handling : ℕ) (us : ℤ) (gp : ℕ) (input : List Char) (p : ℕ) [Fact p.Prime] (g : Gens) (chk : Bool) (vecinit lam : ℕ → ZMod p)
    (out : List Char) : Prop :=
  ∃ (names : List (List Char)) (ps : List (List (ℤ × List ℤ))) (rs : List Result) (a : Att (ZMod p)),
    Parse.readFile input = some ⟨names, p, .ff ps⟩ ∧ Loop handling us p (gensOf names p ps) g chk rs ∧
      AttemptV p us g chk vecinit lam a ∧ Prints gp g a out

end Verif.Solve
