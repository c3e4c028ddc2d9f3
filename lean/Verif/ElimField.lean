import Verif.ElimBasis
import Verif.Lucky
import Verif.EndToEnd

/-!
Elimination over an arbitrary field, and the reduction of the elimination basis modulo a prime.
-/
namespace Verif.ElimField

open Verif.LiftStore Verif.Spec Verif.F4 Verif.Pairs Verif.Lucky Verif.EndToEnd MvPolynomial

variable {n : ℕ}

/-! ### The order with an empty block -/

theorem be_zero : (Be 0 : (Fin n → ℕ) → (Fin n → ℕ) → Prop) = Drl := by
  have h1 : Finset.univ.filter (fun i : Fin n => i.val < 0) = ∅ := by simp
  have h2 : Finset.univ.filter (fun i : Fin n => 0 ≤ i.val) = Finset.univ := by simp
  funext u v
  apply propext
  unfold Be Drl
  rw [h1, h2]
  simp [DrlOn]

theorem ordKind_lt (e : ℕ) : (ordKind e).lt (n := n) = (OKind.be e).lt := by
  unfold ordKind
  split_ifs with h
  · subst h
    exact be_zero.symm
  · rfl

theorem mo_congr {lt lt' : (Fin n → ℕ) → (Fin n → ℕ) → Prop} (h : lt = lt') (a : Admissible lt) (a' : Admissible lt') :
    mo a = mo a' := by
  subst h
  rfl

theorem ordKind_mo (e : ℕ) : (ordKind e).mo (n := n) = (OKind.be e).mo := mo_congr (ordKind_lt e) _ _

theorem ordKind_polyOk {e p : ℕ} {f : Poly n} (h : PolyOk (ordKind e) p f) : PolyOk (.be e) p f :=
  ⟨h.head, by have := h.sorted; rwa [ordKind_lt] at this, h.coeff⟩

/-! ### Elimination over a field -/

section
variable {K : Type*} [Field K]

theorem degree_free {e : ℕ} {g : MvPolynomial (Fin (e + n)) K} {m : Fin (e + n) → ℕ} (hm : (OKind.be e).mo.degree g = fs m)
    (hf : Free e m) : ∃ g', rename (Fin.natAdd e) g' = g := by
  apply exists_rename_eq_of_vars_subset_range _ _ (Fin.natAdd_injective n e)
  intro i hi
  obtain ⟨d, hd, hi⟩ := (mem_vars_iff_mem_support i).mp hi
  obtain ⟨u, rfl⟩ := fs_surj d
  have hfu : Free e u := by
    have hle := (OKind.be e).mo.le_degree hd
    rw [hm] at hle
    rcases eq_or_lt_of_le hle with h | h
    · rw [fs_inj.mp ((OKind.be e).mo.toSyn.injective h)]; exact hf
    · exact free_of_be hf ((lt_iff (.be e) _ _).mp h)
  revert hi
  refine Fin.addCases (fun j => ?_) (fun j => ?_) i
  · intro hi
    rw [Finsupp.mem_support_iff, fs_apply, hfu j] at hi
    exact absurd rfl hi
  · intro _
    exact ⟨j, rfl⟩

theorem elim_reduced_field {e : ℕ} {I : Ideal (MvPolynomial (Fin (e + n)) K)} {G : Set (MvPolynomial (Fin (e + n)) K)}
    (hG : IsReducedGroebner (OKind.be e).mo I G) :
    IsReducedGroebner OKind.drl.mo (I.comap (rename (Fin.natAdd e)).toRingHom) { g | rename (Fin.natAdd e) g ∈ G } := by
  have hinj := rename_injective (R := K) _ (Fin.natAdd_injective n e)
  have hdeg : ∀ g : MvPolynomial (Fin n) K, g ≠ 0 → ∃ m, OKind.drl.mo.degree g = fs m ∧
      (OKind.be e).mo.degree (rename (Fin.natAdd e) g) = fs (embed e m) := by
    intro g hg
    obtain ⟨m, hm⟩ := fs_surj (OKind.drl.mo.degree g)
    exact ⟨m, hm.symm, degree_rename e hg hm.symm⟩
  have hz : ∀ g : MvPolynomial (Fin n) K, rename (Fin.natAdd e) g ≠ 0 → g ≠ 0 := by
    rintro g h rfl
    exact h (map_zero _)
  obtain ⟨⟨h1, h2⟩, h3, h4⟩ := hG
  have hne : ∀ g : MvPolynomial (Fin n) K, rename (Fin.natAdd e) g ∈ G → g ≠ 0 := by
    intro g hg
    apply hz
    intro h0
    have := h3 _ hg
    rw [h0, MonomialOrder.leadingCoeff_zero] at this
    exact zero_ne_one this
  refine ⟨⟨fun g hg => h1 _ hg, ?_⟩, ?_, ?_⟩
  · intro q hq hq0
    have hq0' : rename (Fin.natAdd e) q ≠ 0 := fun h => hq0 (hinj (by rw [h, map_zero]))
    obtain ⟨g, hg, hg0, hle⟩ := h2 _ hq hq0'
    obtain ⟨m, hm1, hm2⟩ := hdeg q hq0
    obtain ⟨w, hw⟩ := fs_surj ((OKind.be e).mo.degree g)
    replace hle : (OKind.be e).mo.degree g ≤ (OKind.be e).mo.degree (rename (Fin.natAdd e) q) := hle
    rw [hm2, ← hw] at hle
    have hfree : Free e w := by
      intro j
      have := hle (Fin.castAdd n j)
      simpa [embed] using this
    obtain ⟨g', rfl⟩ := degree_free hw.symm hfree
    obtain ⟨k, hk1, hk2⟩ := hdeg g' (hz _ hg0)
    refine ⟨g', hg, hz _ hg0, ?_⟩
    rw [hm1, hk1]
    rw [hw, hk2] at hle
    exact embed_le.mp hle
  · intro g hg
    obtain ⟨k, hk1, hk2⟩ := hdeg g (hne g hg)
    have := h3 _ hg
    unfold MonomialOrder.leadingCoeff at this ⊢
    rw [hk2, rename_coeff_embed] at this
    rw [hk1]
    exact this
  · intro g hg g' hg' hgg u hu hle
    obtain ⟨w, rfl⟩ := fs_surj u
    obtain ⟨k, hk1, hk2⟩ := hdeg g' (hne g' hg')
    apply h4 _ hg _ hg' (fun h => hgg (hinj h)) (fs (embed e w))
    · rw [mem_support_iff, rename_coeff_embed]
      exact mem_support_iff.mp hu
    · rw [hk2, embed_le, ← hk1]
      exact hle

end

theorem reduceMod_rename (e p : ℕ) [Fact p.Prime] (g : MvPolynomial (Fin n) ℚ) :
    reduceMod p (rename (Fin.natAdd e) g) = rename (Fin.natAdd e) (reduceMod p g) := by
  ext u
  obtain ⟨w, rfl⟩ := fs_surj u
  rw [coeff_reduceMod]
  by_cases hf : Free e w
  · rw [← embed_drop hf, rename_coeff_embed, rename_coeff_embed, coeff_reduceMod]
  · have key : ∀ {K : Type} [Field K] (q : MvPolynomial (Fin n) K), (rename (Fin.natAdd e) q).coeff (fs w) = 0 := by
      intro K _ q
      apply coeff_rename_eq_zero
      intro v hv
      obtain ⟨w', rfl⟩ := fs_surj v
      rw [← fs_embed, fs_inj] at hv
      subst hv
      exact absurd (free_embed e w') hf
    rw [key, key]
    simp

/-! ### Sorted bases -/

/-- The elements of a finite reduced basis, by increasing leading monomials. -/
theorem sorted_basis {m : MonomialOrder (Fin n)} {K : Type*} [Field K] {I : Ideal (MvPolynomial (Fin n) K)} {G : Set (MvPolynomial (Fin n) K)} (hfin : G.Finite)
    (hG : IsReducedGroebner m I G) : ∃ bs : List (MvPolynomial (Fin n) K), { b | b ∈ bs } = G ∧
      bs.Pairwise fun a b => m.toSyn (m.degree a) < m.toSyn (m.degree b) := by
  classical
  let R : MvPolynomial (Fin n) K → MvPolynomial (Fin n) K → Prop := fun a b => m.toSyn (m.degree a) ≤ m.toSyn (m.degree b)
  have htot : Std.Total R := ⟨fun a b => le_total _ _⟩
  have htr : IsTrans _ R := ⟨fun a b c => le_trans⟩
  let l := List.insertionSort R hfin.toFinset.toList
  have hl : l.Perm hfin.toFinset.toList := List.perm_insertionSort R _
  have hmem : ∀ b, b ∈ l ↔ b ∈ G := by
    intro b
    rw [hl.mem_iff, Finset.mem_toList, Set.Finite.mem_toFinset]
  refine ⟨l, Set.ext hmem, ?_⟩
  have hp : l.Pairwise R := List.pairwise_insertionSort R _
  have hnd : l.Nodup := hl.nodup_iff.mpr (Finset.nodup_toList _)
  refine List.Pairwise.imp_of_mem ?_ (hp.and hnd)
  rintro a b ha hb ⟨h1, h2⟩
  refine lt_of_le_of_ne h1 fun h => ?_
  have hd := m.toSyn.injective h
  refine hG.2.2 a ((hmem a).mp ha) b ((hmem b).mp hb) h2 (m.degree a) ?_ hd.ge
  exact m.degree_mem_support (Groebner.IsReducedGroebner.ne_zero hG ((hmem a).mp ha))

end Verif.ElimField
