import Verif.NormalForm
import Verif.Props.F4

/-! Property C59: normal forms. -/

namespace Verif.Props

open Verif.F4 Verif.Spec Verif.RowReduce Verif.Echelon MvPolynomial

variable {n : Nat}

/-- C59: the computation of normal forms terminates, whatever the sorts and the variant of the elimination
step do; no step is undefined (`rows`: for every outcome of the symbolic preprocessing and of the sorts the
reduction of all rows succeeds). -/
theorem C59_terminates (O : OKind) (p : Nat) (hp : p.Prime) (hp31 : p < 2 ^ 31) (els : List (Poly n))
    (hok : ∀ f ∈ els, PolyOk O p f) (lmps : List Nat) (hlm : ∀ k ∈ lmps, k < els.length) (tbr : List (Poly n))
    (hin : ∀ f ∈ tbr, InPoly p f) :
    (∃ fuel sy, symLoop els lmps (nfStart tbr).ms.length fuel 0 (nfStart tbr) = some sy) ∧
    (∃ N, NfRun O p els lmps tbr N) ∧
    (∀ fuel sy hcm rrs P, symLoop els lmps (nfStart tbr).ms.length fuel 0 (nfStart tbr) = some sy →
      IsCols O sy hcm → rrs.Perm sy.rr → rrs.Pairwise (fun a b => leadCol els hcm a ≤ leadCol els hcm b) →
      IsPar p (nclOf sy) hcm.length P → ∃ N, tbr.mapM (nfRow P hcm (pivs0 els hcm rrs)) = some N) := by
  have : Fact p.Prime := ⟨hp⟩
  have hstart := loopInv_start (lmps := lmps) hok (nfStart_inv els tbr)
  have hterm := symLoop_terminates hok hlm hstart
  refine ⟨hterm, ?_, ?_⟩
  · obtain ⟨fuel, sy, hsym⟩ := hterm
    obtain ⟨a1, _, _, _⟩ := symLoop_inv hok hlm _ _ _ _ hstart hsym
    obtain ⟨hcm, hcol⟩ := exists_cols O sy a1.nodup
    let le : MRow n → MRow n → Prop := fun a b => leadCol els hcm a ≤ leadCol els hcm b
    have htot : Std.Total le := ⟨fun a b => le_total _ _⟩
    have htr : IsTrans (MRow n) le := ⟨fun a b c => le_trans⟩
    have : DecidableRel le := fun a b => inferInstanceAs (Decidable (leadCol els hcm a ≤ leadCol els hcm b))
    have hperm := List.perm_insertionSort le sy.rr
    have hsorted : (sy.rr.insertionSort le).Pairwise le := List.pairwise_insertionSort le _
    have hpar : IsPar p (nclOf sy) hcm.length (par31 p (nclOf sy) hcm.length) := Or.inl rfl
    obtain ⟨N, hN, _⟩ := (nfMat_of hok hlm hsym hcol hperm hsorted).rows hp31 hpar hlm tbr fun f hf => ⟨hf, hin f hf⟩
    exact ⟨N, .mk fuel sy hcm _ _ N hsym hcol hperm hsorted hpar hN⟩
  intro fuel sy hcm rrs P h1 h2 h3 h4 h5
  obtain ⟨N, hN, _⟩ := (nfMat_of hok hlm h1 h2 h3 h4).rows hp31 h5 hlm tbr fun f hf => ⟨hf, hin f hf⟩
  exact ⟨N, hN⟩

/-- C59: the results are normal forms of the polynomials given, in the order given, as lists of terms in
decreasing order with reduced non-zero coefficients (`NULL` for zero). -/
theorem C59_normal_forms (O : OKind) (p : Nat) [hp : Fact p.Prime] (hp31 : p < 2 ^ 31) (els : List (Poly n))
    (hok : ∀ f ∈ els, PolyOk O p f) (lmps : List Nat) (hlm : ∀ k ∈ lmps, k < els.length) (tbr : List (Poly n))
    (hin : ∀ f ∈ tbr, InPoly p f) (N : List (Option (Poly n))) (h : NfRun O p els lmps tbr N) :
    List.Forall₂ (fun f r => (∀ q, r = some q → OutPoly O p q) ∧
      IsNormalForm O.mo { g | ∃ k ∈ lmps, g = toMv p (els.getD k []) } (toMv p f) (resMv p r)) tbr N := by
  obtain ⟨fuel, sy, hcm, rrs, P, N, h1, h2, h3, h4, h5, h6⟩ := h
  obtain ⟨N', hN', hall⟩ := (nfMat_of hok hlm h1 h2 h3 h4).rows hp31 h5 hlm tbr fun f hf => ⟨hf, hin f hf⟩
  rw [h6] at hN'
  obtain rfl := Option.some.inj hN'
  exact hall

/-- C59: with Gröbner bases the results only depend on the classes modulo the ideal: for two computations,
with Gröbner bases of the same ideal which may differ, the results for `f` and `f'` are the same lists of
terms exactly if `f - f'` is in the ideal. -/
theorem C59_unique (O : OKind) (p : Nat) [hp : Fact p.Prime] (hp31 : p < 2 ^ 31)
    (I : Ideal (MvPolynomial (Fin n) (ZMod p)))
    (els els' : List (Poly n)) (hok : ∀ f ∈ els, PolyOk O p f) (hok' : ∀ f ∈ els', PolyOk O p f)
    (lmps lmps' : List Nat) (hlm : ∀ k ∈ lmps, k < els.length) (hlm' : ∀ k ∈ lmps', k < els'.length)
    (hG : IsGroebner O.mo I { g | ∃ k ∈ lmps, g = toMv p (els.getD k []) })
    (hG' : IsGroebner O.mo I { g | ∃ k ∈ lmps', g = toMv p (els'.getD k []) })
    (tbr tbr' : List (Poly n)) (hin : ∀ f ∈ tbr, InPoly p f) (hin' : ∀ f ∈ tbr', InPoly p f)
    (N N' : List (Option (Poly n))) (h : NfRun O p els lmps tbr N) (h' : NfRun O p els' lmps' tbr' N')
    (i j : Nat) (f f' : Poly n) (hf : tbr[i]? = some f) (hf' : tbr'[j]? = some f') :
    ∃ r r', N[i]? = some r ∧ N'[j]? = some r' ∧ (r = r' ↔ toMv p f - toMv p f' ∈ I) := by
  have a := C59_normal_forms O p hp31 els hok lmps hlm tbr hin N h
  have a' := C59_normal_forms O p hp31 els' hok' lmps' hlm' tbr' hin' N' h'
  have get : ∀ {α β : Type} {R : α → β → Prop} {l : List α} {m : List β} {i : Nat} {x : α}, List.Forall₂ R l m →
      l[i]? = some x → ∃ y, m[i]? = some y ∧ R x y := by
    intro α β R l m i x hR
    induction hR generalizing i with
    | nil => intro hx; simp at hx
    | cons hab _ ih =>
      intro hx
      cases i with
      | zero =>
        simp only [List.getElem?_cons_zero, Option.some.injEq] at hx ⊢
        exact ⟨_, rfl, hx ▸ hab⟩
      | succ i => exact ih (by simpa using hx)
  obtain ⟨r, hr, b1, b2, b3⟩ := get a hf
  obtain ⟨r', hr', c1, c2, c3⟩ := get a' hf'
  refine ⟨r, r', hr, hr', ?_⟩
  have hsub : Ideal.span { g | ∃ k ∈ lmps, g = toMv p (els.getD k []) } ≤ I := Ideal.span_le.mpr hG.1
  have hsub' : Ideal.span { g | ∃ k ∈ lmps', g = toMv p (els'.getD k []) } ≤ I := Ideal.span_le.mpr hG'.1
  have d1 := hsub b2
  have d2 := hsub' c2
  constructor
  · intro he
    subst he
    have := I.sub_mem d1 d2
    rwa [sub_sub_sub_cancel_right] at this
  · intro hI
    refine res_unique b1 c1 (normalForm_unique hG b3 ?_ ?_)
    · intro u hu g hg hg0 hle
      obtain ⟨g', hg', hg0', hle'⟩ := hG'.2 g (hG.1 g hg) hg0
      exact c3 u hu g' hg' hg0' (hle'.trans hle)
    · have : resMv p r - resMv p r' = (toMv p f - toMv p f') - (toMv p f - resMv p r) + (toMv p f' - resMv p r') := by ring
      rw [this]
      exact I.add_mem (I.sub_mem hI d1) d2

/-- C59: with a Gröbner basis, the result is `NULL` exactly for the elements of the ideal. -/
theorem C59_membership (O : OKind) (p : Nat) [hp : Fact p.Prime] (hp31 : p < 2 ^ 31)
    (I : Ideal (MvPolynomial (Fin n) (ZMod p))) (els : List (Poly n)) (hok : ∀ f ∈ els, PolyOk O p f)
    (lmps : List Nat) (hlm : ∀ k ∈ lmps, k < els.length)
    (hG : IsGroebner O.mo I { g | ∃ k ∈ lmps, g = toMv p (els.getD k []) })
    (tbr : List (Poly n)) (hin : ∀ f ∈ tbr, InPoly p f) (N : List (Option (Poly n))) (h : NfRun O p els lmps tbr N) :
    List.Forall₂ (fun f r => r = none ↔ toMv p f ∈ I) tbr N := by
  have a := C59_normal_forms O p hp31 els hok lmps hlm tbr hin N h
  refine a.imp ?_
  rintro f r ⟨b1, b2, b3⟩
  have hsub : Ideal.span { g | ∃ k ∈ lmps, g = toMv p (els.getD k []) } ≤ I := Ideal.span_le.mpr hG.1
  have d := hsub b2
  constructor
  · intro he
    subst he
    simpa [resMv] using d
  · intro hI
    refine res_unique (r' := none) b1 (by simp) (normalForm_unique hG b3 (by simp [resMv]) ?_)
    have := I.sub_mem hI d
    simpa [resMv] using this

/-- C59, with the Gröbner basis computed by F4 from generators `F` (`bs_is_gb == 0`): the result for `f` is
`NULL` exactly if `f` is in the ideal generated by `F`. -/
theorem C59_ideal_membership {C : Cfg n} (hC : CfgOk C) {F : List (Poly n)} (hF : ∀ f ∈ F, PolyOk C.ord C.p f)
    {s : St n} {G : List (Poly n)} (hs : Reach C F s) (hd : done s) (hfin : Final C s G)
    (tbr : List (Poly n)) (hin : ∀ f ∈ tbr, InPoly C.p f) (N : List (Option (Poly n)))
    (h : NfRun C.ord C.p G (List.range G.length) tbr N) :
    List.Forall₂ (fun f r => r = none ↔ toMv C.p f ∈ Ideal.span { g | ∃ f ∈ F, g = toMv C.p f }) tbr N := by
  have : Fact C.p.Prime := ⟨hC.prime⟩
  obtain ⟨h1, h2, _⟩ := (C44_reduced hC hF).2 s G hs hd hfin
  refine C59_membership C.ord C.p hC.p31 _ G h2 (List.range G.length) (fun k hk => List.mem_range.mp hk) ?_ tbr hin N h
  have e : { g | ∃ k ∈ List.range G.length, g = toMv C.p (G.getD k []) } = { g | ∃ f ∈ G, g = toMv C.p f } := by
    ext g
    constructor
    · rintro ⟨k, hk, rfl⟩
      have hk := List.mem_range.mp hk
      exact ⟨_, List.getElem_mem hk, by rw [List.getD_eq_getElem _ _ hk]⟩
    · rintro ⟨f, hf, rfl⟩
      obtain ⟨k, hk, rfl⟩ := List.mem_iff_getElem.mp hf
      exact ⟨k, List.mem_range.mpr hk, by rw [List.getD_eq_getElem _ _ hk]⟩
  rw [e]
  exact h1.1

/-! ### The hypotheses are met -/

/-- Normal forms of `x y^2 + 100`, of `0 x + 7 y x^2` (not ordered, a zero coefficient) and of the zero
polynomial, with respect to `x^2 + 3 y`, `x y + 5`. -/
def exT : List (Poly 2) := [[(![1, 2], 1), (![0, 0], 100)], [(![1, 0], 0), (![2, 1], 7)], []]

theorem exT_ok : ∀ f ∈ exT, InPoly 101 f := by
  intro f hf
  simp only [exT, List.mem_cons, List.not_mem_nil, or_false] at hf
  rcases hf with rfl | rfl | rfl <;> exact ⟨by decide, by decide⟩

example : ∃ N, NfRun .drl 101 exF [0, 1] exT N :=
  (C59_terminates .drl 101 (by norm_num) (by norm_num) exF exF_ok [0, 1] (by decide) exT exT_ok).2.1

example {s : St 2} {G : List (Poly 2)} {N : List (Option (Poly 2))} (hs : Reach (stdCfg .drl 101 1) exF s) (hd : done s)
    (hfin : Final (stdCfg .drl 101 1) s G) (h : NfRun .drl 101 G (List.range G.length) exT N) : N[2]? = some none := by
  have h1 := C59_ideal_membership (C := stdCfg .drl 101 1) (stdCfg_ok _ (by norm_num) (by norm_num) (by norm_num)) exF_ok hs hd
    hfin exT exT_ok N h
  cases h1 with
  | cons _ h1 =>
    cases h1 with
    | cons _ h1 =>
      cases h1 with
      | cons h2 _ =>
        simp only [List.getElem?_cons_succ, List.getElem?_cons_zero, Option.some.injEq]
        exact h2.mpr (by rw [toMv_nil]; exact Ideal.zero_mem _)

end Verif.Props
