import Verif.LiftStore

/-!
The part of a reduced Groebner basis for an elimination order that is kept.
Source: src/msolve/lifting-gb.c 588-600, 652-666, 747-773.
-/
namespace Verif.LiftStore
open Verif.Hilbert Verif.Spec Verif.F4 Verif.Pairs MvPolynomial

variable {n : ℕ}

/-- `compute_num_gb`, lifting-gb.c 588-600: the number of leading monomials before the first one with a variable of the
elimination block. -/
def numGb (e : ℕ) : List (Fin (e + n) → ℕ) → ℕ
  | [] => 0
  | m :: ms => if (List.finRange e).any fun j => decide (m (Fin.castAdd n j) ≠ 0) then 0 else numGb e ms + 1

/-- No variable of the elimination block occurs. -/
def Free (e : ℕ) (m : Fin (e + n) → ℕ) : Prop := ∀ j : Fin e, m (Fin.castAdd n j) = 0

/-- The elements kept modulo the other primes, lifting-gb.c 757-766: those whose leading monomial has degree zero in the
elimination block. -/
def keepFree (e : ℕ) (G : List (Poly (e + n))) : List (Poly (e + n)) :=
  G.filter fun f => decide (∑ j : Fin e, F4.lead f (Fin.castAdd n j) = 0)

theorem free_iff_sum (e : ℕ) (m : Fin (e + n) → ℕ) : Free e m ↔ ∑ j : Fin e, m (Fin.castAdd n j) = 0 := by
  simp [Free]

theorem free_embed (e : ℕ) (m : Fin n → ℕ) : Free e (embed e m) := by
  intro j; simp [embed]

theorem embed_drop {e : ℕ} {m : Fin (e + n) → ℕ} (h : Free e m) : embed e (fun i => m (Fin.natAdd e i)) = m := by
  funext i
  refine Fin.addCases (fun j => ?_) (fun j => ?_) i
  · simp [embed, h j]
  · simp [embed]

theorem drop_embed (e : ℕ) (m : Fin n → ℕ) : (fun i => embed e m (Fin.natAdd e i)) = m := by
  funext i; simp [embed]

theorem embed_inj {e : ℕ} {a b : Fin n → ℕ} (h : embed e a = embed e b) : a = b := by
  rw [← drop_embed e a, h, drop_embed]

theorem sum_block1 (e : ℕ) (m : Fin (e + n) → ℕ) :
    ∑ i ∈ Finset.univ.filter (fun i : Fin (e + n) => i.val < e), m i = ∑ j : Fin e, m (Fin.castAdd n j) := by
  rw [Finset.sum_filter, Fin.sum_univ_add]
  simp

theorem sum_block2 (e : ℕ) (m : Fin (e + n) → ℕ) :
    ∑ i ∈ Finset.univ.filter (fun i : Fin (e + n) => e ≤ i.val), m i = ∑ j : Fin n, m (Fin.natAdd e j) := by
  rw [Finset.sum_filter, Fin.sum_univ_add]
  simp

/-- A monomial below a monomial without variables of the block has none. -/
theorem free_of_be {e : ℕ} {u v : Fin (e + n) → ℕ} (hv : Free e v) (h : Be e u v) : Free e u := by
  rw [free_iff_sum] at hv
  rcases h with (h | ⟨h, -⟩) | ⟨h, -⟩
  · rw [sum_block1, sum_block1] at h; omega
  · rw [sum_block1, sum_block1] at h
    rw [free_iff_sum]; omega
  · intro j
    rw [h (Fin.castAdd n j) (by simp)]
    exact (free_iff_sum e v).mpr hv j

/-- A monomial without variables of the block is below all monomials with such variables. -/
theorem be_of_free {e : ℕ} {u v : Fin (e + n) → ℕ} (hu : Free e u) (hv : ¬ Free e v) : Be e u v := by
  left; left
  rw [sum_block1, sum_block1]
  have h1 := (free_iff_sum e u).mp hu
  have h2 : ∑ j : Fin e, v (Fin.castAdd n j) ≠ 0 := fun h => hv ((free_iff_sum e v).mpr h)
  omega

theorem be_embed (e : ℕ) (a b : Fin n → ℕ) : Be e (embed e a) (embed e b) ↔ Drl a b := by
  constructor
  · rintro (h | ⟨-, h⟩)
    · exfalso
      rcases h with h | ⟨-, i, hi, h, -⟩
      · rw [sum_block1, sum_block1, (free_iff_sum e _).mp (free_embed e a), (free_iff_sum e _).mp (free_embed e b)] at h
        omega
      · obtain ⟨j, rfl⟩ : ∃ j : Fin e, i = Fin.castAdd n j := ⟨⟨i.val, (Finset.mem_filter.mp hi).2⟩, rfl⟩
        rw [free_embed, free_embed] at h
        omega
    · unfold DrlOn at h
      rw [sum_block2, sum_block2] at h
      simp only [embed, Fin.append_right] at h
      rcases h with h | ⟨h, i, hi, h1, h2⟩
      · exact Or.inl h
      · right
        refine ⟨h, ?_⟩
        have hie : e ≤ i.val := (Finset.mem_filter.mp hi).2
        obtain ⟨j, rfl⟩ : ∃ j : Fin n, i = Fin.natAdd e j := ⟨⟨i.val - e, by omega⟩, Fin.ext (by rw [Fin.val_natAdd]; dsimp only; omega)⟩
        refine ⟨j, Finset.mem_univ _, by simpa using h1, ?_⟩
        intro k _ hk
        simpa using h2 (Fin.natAdd e k) (by simp) (by rw [Fin.lt_def, Fin.val_natAdd, Fin.val_natAdd]; have := Fin.lt_def.mp hk; omega)
  · intro h
    right
    refine ⟨?_, ?_⟩
    · intro i hi
      obtain ⟨j, rfl⟩ : ∃ j : Fin e, i = Fin.castAdd n j := ⟨⟨i.val, hi⟩, rfl⟩
      rw [free_embed, free_embed]
    · unfold DrlOn
      rw [sum_block2, sum_block2]
      simp only [embed, Fin.append_right]
      rcases h with h | ⟨h, i, -, h1, h2⟩
      · exact Or.inl h
      · right
        refine ⟨h, Fin.natAdd e i, by simp, by simpa using h1, ?_⟩
        intro j hj hij
        have hje : e ≤ j.val := (Finset.mem_filter.mp hj).2
        obtain ⟨k, rfl⟩ : ∃ k : Fin n, j = Fin.natAdd e k := ⟨⟨j.val - e, by omega⟩, Fin.ext (by rw [Fin.val_natAdd]; dsimp only; omega)⟩
        simpa using h2 k (Finset.mem_univ _) (by have := Fin.lt_def.mp hij; rw [Fin.val_natAdd, Fin.val_natAdd] at this; rw [Fin.lt_def]; omega)

/-- The list in the remaining variables. -/
def dropPoly (e : ℕ) (f : Poly (e + n)) : Poly n := f.map fun t => (fun i => t.1 (Fin.natAdd e i), t.2)

theorem embedPoly_drop {e : ℕ} {f : Poly (e + n)} (h : ∀ t ∈ f, Free e t.1) : embedPoly e (dropPoly e f) = f := by
  unfold embedPoly dropPoly
  rw [List.map_map]
  conv_rhs => rw [← List.map_id f]
  apply List.map_congr_left
  intro t ht
  simp only [Function.comp, id_eq]
  rw [embed_drop (h t ht)]

theorem dropPoly_embed (e : ℕ) (f : Poly n) : dropPoly e (embedPoly e f) = f := by
  unfold embedPoly dropPoly
  rw [List.map_map]
  conv_rhs => rw [← List.map_id f]
  apply List.map_congr_left
  intro t _
  simp only [Function.comp, id_eq]
  rw [drop_embed]

theorem lead_embed (e : ℕ) {f : Poly n} (hf : f ≠ []) : F4.lead (embedPoly e f) = embed e (F4.lead f) := by
  cases f with
  | nil => exact absurd rfl hf
  | cons t f => rfl

theorem polyOk_embed (e p : ℕ) (f : Poly n) : PolyOk (.be e) p (embedPoly e f) ↔ PolyOk .drl p f := by
  constructor
  · intro h
    have hne : f ≠ [] := by
      rintro rfl
      obtain ⟨t, ht⟩ := h.head
      simp [embedPoly] at ht
    obtain ⟨t, f', rfl⟩ : ∃ t f', f = t :: f' := by
      cases f with
      | nil => exact absurd rfl hne
      | cons t f => exact ⟨t, f, rfl⟩
    refine ⟨?_, ?_, ?_⟩
    · obtain ⟨r, hr⟩ := h.head
      refine ⟨f', ?_⟩
      have : (embed e t.1, t.2) :: embedPoly e f' = (F4.lead (embedPoly e (t :: f')), 1) :: r := hr
      rw [List.cons.injEq, Prod.mk.injEq] at this
      have h1 := this.1.2
      obtain ⟨a, b⟩ := t
      simp only at h1
      subst h1
      rfl
    · have := h.sorted
      unfold embedPoly at this
      rw [List.map_map, List.pairwise_map] at this
      rw [List.pairwise_map]
      exact this.imp fun {a b} hab => (be_embed e _ _).mp hab
    · intro s hs
      exact h.coeff (embed e s.1, s.2) (List.mem_map_of_mem hs)
  · intro h
    obtain ⟨r, hr⟩ := h.head
    have hne : f ≠ [] := by rw [hr]; simp
    refine ⟨⟨embedPoly e r, ?_⟩, ?_, ?_⟩
    · rw [lead_embed e hne]
      conv_lhs => rw [hr]
      rfl
    · have := h.sorted
      unfold embedPoly
      rw [List.map_map, List.pairwise_map]
      rw [List.pairwise_map] at this
      exact this.imp fun {a b} hab => (be_embed e _ _).mpr hab
    · intro s hs
      obtain ⟨t, ht, rfl⟩ := List.mem_map.mp hs
      exact h.coeff t ht

theorem free_terms {e p : ℕ} {f : Poly (e + n)} (h : PolyOk (.be e) p f) (hf : Free e (F4.lead f)) : ∀ t ∈ f, Free e t.1 := by
  intro t ht
  rcases h.terms t ht with h1 | h1
  · rw [h1]; exact hf
  · exact free_of_be hf h1

theorem numGb_eq (e : ℕ) (l : List (Fin (e + n) → ℕ)) (hs : l.Pairwise (Be e)) :
    l.take (numGb e l) = l.filter (fun m => decide (∑ j : Fin e, m (Fin.castAdd n j) = 0)) ∧
      (∀ m ∈ l.drop (numGb e l), ¬ Free e m) := by
  induction l with
  | nil => simp [numGb]
  | cons m l ih =>
    rw [List.pairwise_cons] at hs
    unfold numGb
    by_cases h : (List.finRange e).any (fun j => decide (m (Fin.castAdd n j) ≠ 0)) = true
    · rw [if_pos h]
      have hm : ¬ Free e m := by
        intro hf
        rw [List.any_eq_true] at h
        obtain ⟨j, -, hj⟩ := h
        exact (by simpa using hj : m (Fin.castAdd n j) ≠ 0) (hf j)
      have hall : ∀ m' ∈ m :: l, ¬ Free e m' := by
        intro m' hm'
        rcases List.mem_cons.mp hm' with rfl | hm'
        · exact hm
        · intro hf
          exact hm (free_of_be hf (hs.1 m' hm'))
      refine ⟨?_, by simpa using hall⟩
      rw [List.take_zero, eq_comm, List.filter_eq_nil_iff]
      intro m' hm'
      rw [decide_eq_true_eq, ← free_iff_sum]
      exact hall m' hm'
    · rw [if_neg h]
      have hm : Free e m := by
        intro j
        by_contra hj
        exact h (List.any_eq_true.mpr ⟨j, List.mem_finRange j, by simpa using hj⟩)
      obtain ⟨i1, i2⟩ := ih hs.2
      refine ⟨?_, by simpa using i2⟩
      rw [List.take_succ_cons, List.filter_cons_of_pos (by rw [decide_eq_true_eq, ← free_iff_sum]; exact hm), i1]

/-- The elements kept in the learning phase are those kept modulo the other primes. -/
theorem keepFree_eq {e : ℕ} {G : List (Poly (e + n))} (hs : G.Pairwise fun a b => Be e (F4.lead a) (F4.lead b)) :
    G.take (numGb e (G.map F4.lead)) = keepFree e G := by
  induction G with
  | nil => simp [keepFree]
  | cons f G ih =>
    have hs' := hs
    rw [List.pairwise_cons] at hs
    obtain ⟨h1, h2⟩ := numGb_eq e ((f :: G).map F4.lead) (List.pairwise_map.mpr hs')
    rw [List.map_cons] at h1 h2 ⊢
    unfold keepFree
    unfold numGb at h1 h2 ⊢
    by_cases h : (List.finRange e).any (fun j => decide (F4.lead f (Fin.castAdd n j) ≠ 0)) = true
    · rw [if_pos h] at h1 h2 ⊢
      rw [List.take_zero, eq_comm, List.filter_eq_nil_iff]
      intro g hg
      rw [decide_eq_true_eq, ← free_iff_sum]
      rw [List.drop_zero, ← List.map_cons] at h2
      exact h2 _ (List.mem_map_of_mem hg)
    · rw [if_neg h] at h1 h2 ⊢
      have hm : Free e (F4.lead f) := by
        intro j
        by_contra hj
        exact h (List.any_eq_true.mpr ⟨j, List.mem_finRange j, by simpa using hj⟩)
      rw [List.take_succ_cons, List.filter_cons_of_pos (by rw [decide_eq_true_eq, ← free_iff_sum]; exact hm), ih hs.2]
      rfl

theorem mem_keepFree {e : ℕ} {G : List (Poly (e + n))} {f : Poly (e + n)} : f ∈ keepFree e G ↔ f ∈ G ∧ Free e (F4.lead f) := by
  unfold keepFree
  rw [List.mem_filter, decide_eq_true_eq, ← free_iff_sum]

theorem rename_coeff_embed {R : Type*} [CommSemiring R] (e : ℕ) (f : MvPolynomial (Fin n) R) (m : Fin n → ℕ) :
    (rename (Fin.natAdd e) f).coeff (fs (embed e m)) = f.coeff (fs m) := by
  rw [fs_embed, coeff_rename_mapDomain _ (Fin.natAdd_injective n e)]

/-- Degrees in the big ring. -/
theorem degree_rename {K : Type*} [Field K] (e : ℕ) {f : MvPolynomial (Fin n) K} (hf : f ≠ 0) {m : Fin n → ℕ}
    (hm : OKind.drl.mo.degree f = fs m) : (OKind.be e).mo.degree (rename (Fin.natAdd e) f) = fs (embed e m) := by
  apply (OKind.be e).mo.toSyn.injective
  apply le_antisymm
  · rw [MonomialOrder.degree_le_iff]
    intro b hb
    obtain ⟨u, rfl⟩ := fs_surj b
    rw [mem_support_iff] at hb
    obtain ⟨v, hv, hvc⟩ := coeff_rename_ne_zero _ _ _ hb
    obtain ⟨w, rfl⟩ := fs_surj v
    rw [← fs_embed, fs_inj] at hv
    subst hv
    have hle := OKind.drl.mo.le_degree (mem_support_iff.mpr hvc)
    rw [hm] at hle
    rcases eq_or_lt_of_le hle with h | h
    · have : w = m := fs_inj.mp (OKind.drl.mo.toSyn.injective h)
      rw [this]
    · exact le_of_lt ((lt_iff (.be e) _ _).mpr ((be_embed e w m).mpr ((lt_iff .drl _ _).mp h)))
  · apply (OKind.be e).mo.le_degree
    rw [mem_support_iff, rename_coeff_embed, ← hm]
    exact OKind.drl.mo.coeff_degree_ne_zero_iff.mpr hf

theorem embed_le {e : ℕ} {a b : Fin n → ℕ} : fs (embed e a) ≤ fs (embed e b) ↔ fs a ≤ fs b := by
  constructor
  · intro h i
    have := h (Fin.natAdd e i)
    simpa [embed] using this
  · intro h i
    refine Fin.addCases (fun j => ?_) (fun j => ?_) i
    · simp [embed]
    · simpa [embed] using h j

/-- The elements without variables of the block are the reduced Groebner basis of the elimination ideal. -/
theorem elim_reduced {e p : ℕ} [Fact p.Prime] {I : Ideal (MvPolynomial (Fin (e + n)) (ZMod p))} {G : List (Poly (e + n))}
    (hG : IsReducedGroebner (OKind.be e).mo I { g | ∃ f ∈ G, g = toMv p f }) (hok : ∀ f ∈ G, PolyOk (.be e) p f) :
    IsReducedGroebner OKind.drl.mo (I.comap (rename (Fin.natAdd e)).toRingHom)
      { g | ∃ f ∈ (keepFree e G).map (dropPoly e), g = toMv p f } := by
  have hdrop : ∀ f ∈ keepFree e G, embedPoly e (dropPoly e f) = f ∧ PolyOk .drl p (dropPoly e f) := by
    intro f hf
    obtain ⟨h1, h2⟩ := mem_keepFree.mp hf
    have h3 := embedPoly_drop (free_terms (hok f h1) h2)
    refine ⟨h3, (polyOk_embed e p _).mp ?_⟩
    rw [h3]; exact hok f h1
  have hren : ∀ f ∈ keepFree e G, rename (Fin.natAdd e) (toMv p (dropPoly e f)) = toMv p f := by
    intro f hf
    rw [← toMv_embed, (hdrop f hf).1]
  have hne : ∀ f ∈ keepFree e G, dropPoly e f ≠ [] := by
    intro f hf h
    obtain ⟨t, ht⟩ := (hdrop f hf).2.head
    rw [h] at ht
    simp at ht
  have hlead : ∀ f ∈ keepFree e G, F4.lead f = embed e (F4.lead (dropPoly e f)) := by
    intro f hf
    rw [← lead_embed e (hne f hf), (hdrop f hf).1]
  obtain ⟨⟨h1, h2⟩, h3, h4⟩ := hG
  refine ⟨⟨?_, ?_⟩, ?_, ?_⟩
  · rintro g ⟨f', hf', rfl⟩
    obtain ⟨f, hf, rfl⟩ := List.mem_map.mp hf'
    rw [Ideal.mem_comap]
    show rename (Fin.natAdd e) (toMv p (dropPoly e f)) ∈ I
    rw [hren f hf]
    exact h1 _ ⟨f, (mem_keepFree.mp hf).1, rfl⟩
  · intro q hq hq0
    obtain ⟨m, hm⟩ := fs_surj (OKind.drl.mo.degree q)
    have hq' : rename (Fin.natAdd e) q ∈ I := hq
    have hq0' : rename (Fin.natAdd e) q ≠ 0 := by
      intro h
      exact hq0 (rename_injective _ (Fin.natAdd_injective n e) (by rw [h, map_zero]))
    obtain ⟨g, ⟨f, hf, rfl⟩, hg0, hle⟩ := h2 _ hq' hq0'
    rw [degree_rename e hq0 hm.symm, (hok f hf).degree] at hle
    have hfree : Free e (F4.lead f) := by
      intro j
      have := hle (Fin.castAdd n j)
      simpa [embed] using this
    have hk := mem_keepFree.mpr ⟨hf, hfree⟩
    refine ⟨_, ⟨dropPoly e f, List.mem_map_of_mem hk, rfl⟩, ?_, ?_⟩
    · intro h
      rw [← hren f hk, h, map_zero] at hg0
      exact hg0 rfl
    · rw [(hdrop f hk).2.degree, ← hm]
      rw [hlead f hk] at hle
      exact embed_le.mp hle
  · rintro g ⟨f', hf', rfl⟩
    obtain ⟨f, hf, rfl⟩ := List.mem_map.mp hf'
    exact (hdrop f hf).2.monic
  · rintro g ⟨f', hf', rfl⟩ g' ⟨f'', hf'', rfl⟩ hne' u hu hle
    obtain ⟨f, hf, rfl⟩ := List.mem_map.mp hf'
    obtain ⟨f2, hf2, rfl⟩ := List.mem_map.mp hf''
    obtain ⟨w, rfl⟩ := fs_surj u
    apply h4 (toMv p f) ⟨f, (mem_keepFree.mp hf).1, rfl⟩ (toMv p f2) ⟨f2, (mem_keepFree.mp hf2).1, rfl⟩ ?_ (fs (embed e w))
    · rw [mem_support_iff, ← hren f hf, rename_coeff_embed]
      exact mem_support_iff.mp hu
    · rw [(hok f2 (mem_keepFree.mp hf2).1).degree, hlead f2 hf2, embed_le, ← (hdrop f2 hf2).2.degree]
      exact hle
    · intro h
      apply hne'
      apply rename_injective _ (Fin.natAdd_injective n e)
      rw [hren f hf, hren f2 hf2, h]

theorem elim_sorted {e p : ℕ} {G : List (Poly (e + n))} (hok : ∀ f ∈ G, PolyOk (.be e) p f)
    (hs : G.Pairwise fun a b => Be e (F4.lead a) (F4.lead b)) :
    ((keepFree e G).map (dropPoly e)).Pairwise fun a b => Drl (F4.lead a) (F4.lead b) := by
  rw [List.pairwise_map]
  have : (keepFree e G).Pairwise fun a b => Be e (F4.lead a) (F4.lead b) := List.Pairwise.filter _ hs
  rw [List.pairwise_iff_getElem] at this ⊢
  intro i j hi hj hij
  have hb := this i j hi hj hij
  have hl : ∀ f ∈ keepFree e G, F4.lead f = embed e (F4.lead (dropPoly e f)) := by
    intro f hf
    obtain ⟨h1, h2⟩ := mem_keepFree.mp hf
    have h3 := embedPoly_drop (free_terms (hok f h1) h2)
    have hne : dropPoly e f ≠ [] := by
      intro h
      obtain ⟨t, ht⟩ := (hok f h1).head
      rw [← h3, h] at ht
      simp [embedPoly] at ht
    rw [← lead_embed e hne, h3]
  rw [hl _ (List.getElem_mem hi), hl _ (List.getElem_mem hj)] at hb
  exact (be_embed e _ _).mp hb

end Verif.LiftStore
