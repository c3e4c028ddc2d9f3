import Verif.F4Matrix
import Verif.GroebnerUnique
import Verif.Spec.NormalForm
import Mathlib.Data.List.Forall2

/-! Model of the computation of normal forms, `core_nf` (src/neogb/nf.c 55-112): selection of the rows
(symbol.c 449-488), symbolic preprocessing (symbol.c 554-640), conversion to a matrix (convert.c 300-400),
reduction by the known pivots (la_ff_32.c 2588-2700 with `st->nf > 0`, the same in la_ff_16.c and la_ff_8.c),
conversion to polynomials (convert.c 552-630).  Simplifications as for a round of F4 (`Verif.Symbolic`). -/

namespace Verif.F4

open Verif.Pairs Verif.Spec Verif.RowReduce Verif.Echelon Verif.Props Verif.Orders Verif.Groebner MvPolynomial

variable {n : Nat}

/-- `select_tbr`, symbol.c 449-488: the monomials of all polynomials are entered (multiplier 1), none is
marked as a leading monomial. -/
def nfStart (tbr : List (Poly n)) : Sym n := ⟨tbr.foldl addAll [], [], [], []⟩

/-- One row: la_ff_32.c 2629-2671 with `st->nf > 0` (start column 0, one pass, no normalisation) and
convert.c 577-620 (`none` inside stands for the `NULL` entered for a zero normal form).  The rows are
independent: no pivot is entered, so the interleaving of the threads does not matter. -/
def nfRow (P : Echelon.Par) (hcm : List (Mon n)) (pivs : Nat → Option Row) (f : Poly n) : Option (Option (Poly n)) :=
  (reduceRow P.elim P.p pivs P.ncl P.ncols 0 (fill (convRow hcm f))).map fun x => x.2.map (backRow hcm)

/-- The variants of the elimination step: 31 bit, or the lazy one where its precondition holds (C47). -/
def IsPar (p ncl ncols : Nat) (P : Echelon.Par) : Prop :=
  P = par31 p ncl ncols ∨ (p < 2 ^ 18 ∧ ncols < 2 ^ 27 ∧ P = par17 p ncl ncols)

/-- `core_nf`, nf.c 55-112, for the basis elements `els` with the reducers `lmps`: what is left in `tbr`.
`hcm` and `rrs` are the results of the sorts of columns and rows. -/
inductive NfRun (O : OKind) (p : Nat) (els : List (Poly n)) (lmps : List Nat) (tbr : List (Poly n)) :
    List (Option (Poly n)) → Prop
  | mk (fuel : Nat) (sy : Sym n) (hcm : List (Mon n)) (rrs : List (MRow n)) (P : Echelon.Par)
      (N : List (Option (Poly n))) :
      symLoop els lmps (nfStart tbr).ms.length fuel 0 (nfStart tbr) = some sy →
      IsCols O sy hcm →
      rrs.Perm sy.rr → rrs.Pairwise (fun a b => leadCol els hcm a ≤ leadCol els hcm b) →
      IsPar p (nclOf sy) hcm.length P →
      tbr.mapM (nfRow P hcm (pivs0 els hcm rrs)) = some N →
      NfRun O p els lmps tbr N

/-- What is required of a polynomial to be reduced: no monomial twice, coefficients reduced.  The terms
need not be ordered and coefficients may be zero. -/
structure InPoly (p : Nat) (f : Poly n) : Prop where
  nodup : (f.map Prod.fst).Nodup
  coeff : ∀ t ∈ f, t.2 < p

/-- The polynomials used for the reduction. -/
def redSet (p : Nat) (els : List (Poly n)) (lmps : List Nat) : Set (MvPolynomial (Fin n) (ZMod p)) :=
  { g | ∃ k ∈ lmps, g = toMv p (els.getD k []) }

/-- The polynomial of a result. -/
noncomputable def resMv (p : Nat) : Option (Poly n) → MvPolynomial (Fin n) (ZMod p)
  | none => 0
  | some f => toMv p f

/-- The form of a result: terms strictly decreasing, coefficients reduced and not zero, at least one term. -/
structure OutPoly (O : OKind) (p : Nat) (f : Poly n) : Prop where
  ne : f ≠ []
  sorted : (f.map Prod.fst).Pairwise fun a b => O.lt b a
  coeff : ∀ t ∈ f, 0 < t.2 ∧ t.2 < p

/-! ### Symbolic preprocessing -/

theorem mem_foldl_addAll (tbr : List (Poly n)) : ∀ (ms : List (Mon n)) (m : Mon n),
    m ∈ tbr.foldl addAll ms ↔ m ∈ ms ∨ ∃ f ∈ tbr, ∃ t ∈ f, t.1 = m := by
  induction tbr with
  | nil => intro ms m; simp
  | cons f l ih =>
    intro ms m
    rw [List.foldl_cons, ih, mem_addAll]
    constructor
    · rintro ((h | h) | ⟨g, hg, h⟩)
      · exact Or.inl h
      · exact Or.inr ⟨f, List.mem_cons_self, h⟩
      · exact Or.inr ⟨g, List.mem_cons_of_mem _ hg, h⟩
    · rintro (h | ⟨g, hg, h⟩)
      · exact Or.inl (Or.inl h)
      · rcases List.mem_cons.mp hg with rfl | hg
        · exact Or.inl (Or.inr h)
        · exact Or.inr ⟨g, hg, h⟩

theorem nodup_foldl_addAll (tbr : List (Poly n)) : ∀ ms : List (Mon n), ms.Nodup → (tbr.foldl addAll ms).Nodup := by
  induction tbr with
  | nil => intro ms h; exact h
  | cons f l ih => intro ms h; exact ih _ (addAll_nodup f ms h)

theorem nfStart_inv (els : List (Poly n)) (tbr : List (Poly n)) : SymInv els (nfStart tbr) := by
  refine ⟨nodup_foldl_addAll tbr [] List.nodup_nil, ?_, ?_, List.nodup_nil, ?_⟩
  · rintro r (h | h) <;> exact absurd h List.not_mem_nil
  · intro m
    constructor
    · intro h; exact absurd h List.not_mem_nil
    · rintro ⟨r, h, _⟩; exact absurd h List.not_mem_nil
  · intro r h; exact absurd h List.not_mem_nil

/-- Reducers are taken from `lmps`, and no monomial gets lost. -/
theorem symLoop_gens (els : List (Poly n)) (lmps : List Nat) (old : Nat) : ∀ (fuel i : Nat) (s s' : Sym n),
    symLoop els lmps old fuel i s = some s' → (∀ r ∈ s.rr, r.gen ∈ lmps) →
    (∀ r ∈ s'.rr, r.gen ∈ lmps) ∧ ∀ m ∈ s.ms, m ∈ s'.ms := by
  intro fuel
  induction fuel with
  | zero =>
    intro i s s' hs h
    unfold symLoop at hs
    generalize s.ms[i]? = mo at hs
    cases mo with
    | some m => simp at hs
    | none =>
      simp only [Option.some.injEq] at hs
      subst hs
      exact ⟨h, fun _ h => h⟩
  | succ fuel ih =>
    intro i s s' hs h
    unfold symLoop at hs
    generalize s.ms[i]? = mo at hs
    cases mo with
    | none =>
      simp only [Option.some.injEq] at hs
      subst hs
      exact ⟨h, fun _ h => h⟩
    | some m =>
      simp only at hs
      split_ifs at hs with hc
      · exact ih _ _ _ hs h
      · have hstep : (∀ r ∈ (symStep els lmps m s).rr, r.gen ∈ lmps) ∧ ∀ x ∈ s.ms, x ∈ (symStep els lmps m s).ms := by
          unfold symStep
          generalize hf : findReducer els lmps m = res
          cases res with
          | none => exact ⟨h, fun _ h => h⟩
          | some k =>
            refine ⟨?_, fun x hx => (mem_addAll _ _ _).mpr (Or.inl hx)⟩
            intro r hr
            rcases List.mem_append.mp hr with hr | hr
            · exact h r hr
            · rw [List.mem_singleton.mp hr]
              exact List.mem_of_find?_eq_some hf
        obtain ⟨h1, h2⟩ := ih _ _ _ hs hstep.1
        exact ⟨h1, fun x hx => h2 x (hstep.2 x hx)⟩

/-! ### The reduction -/

/-- Facts about the matrix of a normal form computation. -/
structure NfMat (O : OKind) (p : Nat) (els : List (Poly n)) (lmps : List Nat) (tbr : List (Poly n)) (sy : Sym n)
    (hcm : List (Mon n)) (rrs : List (MRow n)) : Prop where
  mat : MatInv O p els sy hcm rrs []
  gens : ∀ r ∈ sy.rr, r.gen ∈ lmps
  cols : ∀ f ∈ tbr, ∀ t ∈ f, t.1 ∈ hcm
  irr : ∀ m ∈ hcm, m ∈ sy.mark ∨ ∀ k ∈ lmps, ¬ lead (els.getD k []) ≤ m

theorem nfMat_of {O : OKind} {p : Nat} {els : List (Poly n)} (hok : ∀ f ∈ els, PolyOk O p f) {lmps : List Nat}
    (hlm : ∀ k ∈ lmps, k < els.length) {tbr : List (Poly n)} {fuel : Nat} {sy : Sym n} {hcm : List (Mon n)}
    {rrs : List (MRow n)} (hs : symLoop els lmps (nfStart tbr).ms.length fuel 0 (nfStart tbr) = some sy)
    (hc : IsCols O sy hcm) (hp : rrs.Perm sy.rr)
    (hso : rrs.Pairwise (fun a b => leadCol els hcm a ≤ leadCol els hcm b)) :
    NfMat O p els lmps tbr sy hcm rrs := by
  have hst := loopInv_start (lmps := lmps) hok (nfStart_inv els tbr)
  obtain ⟨a1, a2, _, a4⟩ := symLoop_inv hok hlm fuel 0 _ _ hst hs
  obtain ⟨b1, b2⟩ := symLoop_gens els lmps _ fuel 0 _ _ hs (fun r h => absurd h List.not_mem_nil)
  refine ⟨⟨hok, a1, hc, hp, hso, ?_⟩, b1, ?_, fun m hm => a4 m (hc.1.mem_iff.mp hm)⟩
  · rw [a2]; exact List.Perm.nil
  · intro f hf t ht
    exact hc.1.mem_iff.mpr (b2 _ ((mem_foldl_addAll tbr [] _).mpr (Or.inr ⟨f, hf, t, ht, rfl⟩)))

theorem isPar_ok {p ncl ncols : Nat} (hp : p.Prime) (hp31 : p < 2 ^ 31) {P : Echelon.Par} (h : IsPar p ncl ncols P)
    (hncl : ncl ≤ ncols) : P.p = p ∧ P.ncl = ncl ∧ P.ncols = ncols ∧ ∃ Ok, ParOk P Ok := by
  rcases h with rfl | ⟨h18, hn, rfl⟩
  · exact ⟨rfl, rfl, rfl, _, par31_ok p ncl ncols hp hp31 hncl⟩
  · exact ⟨rfl, rfl, rfl, _, par17_ok p ncl ncols hp h18 hn hncl⟩

section
variable {O : OKind} {p : Nat} {els : List (Poly n)} {lmps : List Nat} {tbr : List (Poly n)} {sy : Sym n}
  {hcm : List (Mon n)} {rrs : List (MRow n)}

/-- The pivot rows stand for multiples of the reducers. -/
theorem NfMat.phi_span (h : NfMat O p els lmps tbr sy hcm rrs) [Fact p.Prime] (a b : Nat) {v : Nat → ZMod p}
    (hv : v ∈ pivSpan p (pivs0 els hcm rrs) a b) : phi p hcm v ∈ Ideal.span (redSet p els lmps) := by
  refine Submodule.span_induction (p := fun v _ => phi p hcm v ∈ Ideal.span (redSet p els lmps)) ?_ ?_ ?_ ?_ hv
  · rintro v ⟨j, r, _, _, hj, rfl⟩
    simp only [pivs0, Option.map_eq_some_iff] at hj
    obtain ⟨x, hx, rfl⟩ := hj
    have hxm : x ∈ sy.rr := h.mat.rr.mem_iff.mp (List.mem_of_getElem? hx)
    rw [phi_rvec _ _ _ fun t ht => ((h.mat.row_cols (Or.inl hxm)).2.1 t ht).2.1,
      backRow_convRow _ _ (h.mat.row (Or.inl hxm)).2.2, rowPoly, toMv_mulPoly]
    exact Ideal.mul_mem_left _ _ (Ideal.subset_span ⟨_, h.gens x hxm, rfl⟩)
  · rw [map_zero]; exact Ideal.zero_mem _
  · intro x y _ _ h1 h2; rw [map_add]; exact Ideal.add_mem _ h1 h2
  · intro c x _ h1
    rw [map_smul, MvPolynomial.smul_eq_C_mul]
    exact Ideal.mul_mem_left _ _ h1

theorem NfMat.row (h : NfMat O p els lmps tbr sy hcm rrs) [hp : Fact p.Prime] (hp31 : p < 2 ^ 31) {P : Echelon.Par}
    (hP : IsPar p (nclOf sy) hcm.length P) {f : Poly n} (hf : f ∈ tbr) (hin : InPoly p f)
    (hlm : ∀ k ∈ lmps, k < els.length) :
    ∃ r, nfRow P hcm (pivs0 els hcm rrs) f = some r ∧ (∀ q, r = some q → OutPoly O p q) ∧
      IsNormalForm O.mo (redSet p els lmps) (toMv p f) (resMv p r) := by
  have hpre := h.mat.pre
  have hncl := hpre.left
  obtain ⟨e1, e2, e3, Ok, hPok⟩ := isPar_ok hp.out hp31 hP hncl
  have hcols := h.cols f hf
  have hlenlt : ∀ t ∈ convRow hcm f, t.1 < hcm.length ∧ t.2 < p := by
    intro t ht
    obtain ⟨x, hx, rfl⟩ := List.mem_map.mp ht
    exact ⟨List.idxOf_lt_length_iff.mpr (hcols x hx), hin.coeff x hx⟩
  have hnd : ((convRow hcm f).map Prod.fst).Nodup := by
    have : (convRow hcm f).map Prod.fst = (f.map Prod.fst).map fun m => hcm.idxOf m := by
      simp [convRow, Function.comp_def]
    rw [this, List.Nodup, List.pairwise_map]
    refine List.Pairwise.imp_of_mem ?_ hin.nodup
    intro a b ha hb hab he
    obtain ⟨x, hx, rfl⟩ := List.mem_map.mp ha
    obtain ⟨y, hy, rfl⟩ := List.mem_map.mp hb
    exact hab (idxOf_inj' (hcols x hx) (hcols y hy) he)
  have hE := hPok.elim
  have hE0 : Ok 0 (fill (convRow hcm f)) := hE.init _ (by
    rw [e1]; exact fill_range p hp.out.pos _ fun t ht => (hlenlt t ht).2)
  rw [e1, e3] at hE
  obtain ⟨dr', res, hred, hok⟩ := reduceRow_spec hE hp.out.pos (by omega) hpre.piv (ncl := nclOf sy) (dpiv := 0) hE0
    (Nat.zero_le _) hncl (fun c hc => absurd hc (by omega))
    (fun c hc => fill_zero _ _ fun t ht => by have := (hlenlt t ht).1; omega)
    (fun c hc => Or.inr ((hpre.known c).mpr hc))
  have hdiff : toMv p f - phi p hcm (vec p dr') ∈ Ideal.span (redSet p els lmps) := by
    have h1 := h.phi_span _ _ hok.span
    rw [map_sub, fill_vec _ _ hnd, phi_rvec _ _ _ fun t ht => (hlenlt t ht).1, backRow_convRow _ _ hcols] at h1
    rw [← neg_sub]
    exact (Ideal.neg_mem_iff _).mpr h1
  refine ⟨res.map (backRow hcm), ?_, ?_, ?_⟩
  · unfold nfRow
    rw [e1, e2, e3, hred]
    rfl
  · intro q hq
    obtain ⟨r, hr, rfl⟩ := Option.map_eq_some_iff.mp hq
    obtain ⟨_, r2, r3, r4⟩ := hok.row r hr
    refine ⟨by simpa [backRow] using r2, ?_, ?_⟩
    · have : (backRow hcm r).map Prod.fst = (r.map Prod.fst).map fun c => hcm.getD c 0 := by
        simp [backRow, Function.comp_def]
      rw [this, List.pairwise_map]
      refine List.Pairwise.imp_of_mem ?_ r3
      intro a b ha hb hab
      obtain ⟨x, hx, rfl⟩ := List.mem_map.mp ha
      obtain ⟨y, hy, rfl⟩ := List.mem_map.mp hb
      obtain ⟨x1, _, x3, _⟩ := r4 x hx
      obtain ⟨y1, _, y3, _⟩ := r4 y hy
      rw [List.getD_eq_getElem _ _ x3, List.getD_eq_getElem _ _ y3]
      rcases List.pairwise_iff_getElem.mp h.mat.cols.2 _ _ x3 y3 hab with h5 | h5
      · exact absurd ((mark_iff_lt h.mat.cols x3).mp h5.1) (by omega)
      · exact h5.2
    · intro t ht
      obtain ⟨x, hx, rfl⟩ := List.mem_map.mp ht
      obtain ⟨_, _, _, x4, x5, _⟩ := r4 x hx
      exact ⟨x4, x5⟩
  · have hres : resMv p (res.map (backRow hcm)) = phi p hcm (vec p dr') := by
      cases res with
      | none => rw [hok.null rfl, map_zero]; rfl
      | some r =>
        obtain ⟨r1, _, _, r4⟩ := hok.row r rfl
        rw [← r1, phi_rvec _ _ _ fun t ht => (r4 t ht).2.2.1]
        rfl
    refine ⟨by rw [hres]; exact hdiff, ?_⟩
    intro u hu g hg _
    obtain ⟨k, hk, rfl⟩ := hg
    have hkl := hlm k hk
    have hpo : PolyOk O p (els.getD k []) := by
      rw [List.getD_eq_getElem _ _ hkl]; exact h.mat.ok _ (List.getElem_mem hkl)
    rw [hpo.degree]
    cases res with
    | none => simp [resMv] at hu
    | some r =>
      obtain ⟨_, _, _, r4⟩ := hok.row r rfl
      obtain ⟨m, rfl⟩ := fs_surj u
      have hex : ∃ t ∈ backRow hcm r, t.1 = m := by
        by_contra hno
        push Not at hno
        rw [mem_support_iff] at hu
        exact hu (toMv_coeff_zero p (backRow hcm r) m hno)
      obtain ⟨t, ht, rfl⟩ := hex
      obtain ⟨x, hx, rfl⟩ := List.mem_map.mp ht
      obtain ⟨x1, _, x3, _, _, _⟩ := r4 x hx
      simp only
      rw [List.getD_eq_getElem _ _ x3, fs_le]
      rcases h.irr _ (List.getElem_mem x3) with h1 | h1
      · exact absurd ((mark_iff_lt h.mat.cols x3).mp h1) (by omega)
      · exact h1 k hk

theorem NfMat.rows (h : NfMat O p els lmps tbr sy hcm rrs) [hp : Fact p.Prime] (hp31 : p < 2 ^ 31) {P : Echelon.Par}
    (hP : IsPar p (nclOf sy) hcm.length P) (hlm : ∀ k ∈ lmps, k < els.length) :
    ∀ l : List (Poly n), (∀ f ∈ l, f ∈ tbr ∧ InPoly p f) →
    ∃ N, l.mapM (nfRow P hcm (pivs0 els hcm rrs)) = some N ∧
      List.Forall₂ (fun f r => (∀ q, r = some q → OutPoly O p q) ∧
        IsNormalForm O.mo (redSet p els lmps) (toMv p f) (resMv p r)) l N := by
  intro l
  induction l with
  | nil => intro _; exact ⟨[], rfl, .nil⟩
  | cons f l ih =>
    intro hl
    obtain ⟨h1, h2⟩ := hl f List.mem_cons_self
    obtain ⟨r, a1, a2, a3⟩ := h.row hp31 hP h1 h2 hlm
    obtain ⟨N, b1, b2⟩ := ih fun g hg => hl g (List.mem_cons_of_mem _ hg)
    refine ⟨r :: N, ?_, .cons ⟨a2, a3⟩ b2⟩
    rw [List.mapM_cons, a1, b1]
    rfl

end

/-! ### Uniqueness -/

/-- Two normal forms modulo Gröbner bases of the same ideal which differ by an element of the ideal are
equal. -/
theorem normalForm_unique {K : Type*} [Field K] {m : MonomialOrder (Fin n)} {I : Ideal (MvPolynomial (Fin n) K)}
    {G : Set (MvPolynomial (Fin n) K)} (hG : IsGroebner m I G) {r r' : MvPolynomial (Fin n) K}
    (hr : ∀ u ∈ r.support, ∀ g ∈ G, g ≠ 0 → ¬ m.degree g ≤ u)
    (hr' : ∀ u ∈ r'.support, ∀ g ∈ G, g ≠ 0 → ¬ m.degree g ≤ u) (h : r - r' ∈ I) : r = r' := by
  by_contra hne
  have hd : r - r' ≠ 0 := sub_ne_zero.mpr hne
  obtain ⟨g, hg, hg0, hle⟩ := hG.2 _ h hd
  have hs : m.degree (r - r') ∈ (r - r').support := m.degree_mem_support hd
  have : m.degree (r - r') ∈ r.support ∨ m.degree (r - r') ∈ r'.support := by
    by_contra hno
    push Not at hno
    rw [notMem_support_iff, notMem_support_iff] at hno
    rw [mem_support_iff, coeff_sub, hno.1, hno.2, sub_zero] at hs
    exact hs rfl
  rcases this with h1 | h1
  · exact hr _ h1 g hg hg0 hle
  · exact hr' _ h1 g hg hg0 hle

/-- Ordered lists of terms with the same polynomial are equal. -/
theorem terms_unique {O : OKind} {p : Nat} [Fact p.Prime] : ∀ (f g : Poly n),
    (f.map Prod.fst).Pairwise (fun a b => O.lt b a) → (∀ t ∈ f, 0 < t.2 ∧ t.2 < p) →
    (g.map Prod.fst).Pairwise (fun a b => O.lt b a) → (∀ t ∈ g, 0 < t.2 ∧ t.2 < p) →
    toMv p f = toMv p g → f = g := by
  intro f g hf cf hg cg h
  have hp : p.Prime := Fact.out
  have key : ∀ (f g : Poly n), (f.map Prod.fst).Pairwise (fun a b => O.lt b a) → (∀ t ∈ f, 0 < t.2 ∧ t.2 < p) →
      (g.map Prod.fst).Pairwise (fun a b => O.lt b a) → (∀ t ∈ g, 0 < t.2 ∧ t.2 < p) →
      toMv p f = toMv p g → ∀ t ∈ f, t ∈ g := by
    intro f g hf cf hg cg h t ht
    have h1 := toMv_coeff p f hf t ht
    have hne : ((t.2 : Nat) : ZMod p) ≠ 0 := by
      rw [Ne, ZMod.natCast_eq_zero_iff]
      intro hd
      have := Nat.le_of_dvd (cf t ht).1 hd
      have := (cf t ht).2
      omega
    have hex : ∃ s ∈ g, s.1 = t.1 := by
      by_contra hno
      push Not at hno
      rw [h, toMv_coeff_zero p g t.1 hno] at h1
      exact hne h1.symm
    obtain ⟨s, hs, he⟩ := hex
    have h2 := toMv_coeff p g hg s hs
    rw [he, ← h, h1, ZMod.natCast_eq_natCast_iff', Nat.mod_eq_of_lt (cf t ht).2, Nat.mod_eq_of_lt (cg s hs).2] at h2
    have : s = t := Prod.ext he h2.symm
    rw [← this]
    exact hs
  have nd : ∀ f : Poly n, (f.map Prod.fst).Pairwise (fun a b => O.lt b a) → f.Nodup := by
    intro f hf
    rw [List.pairwise_map] at hf
    exact hf.imp fun hab he => by rw [he] at hab; exact O.adm.irrefl _ hab
  have hperm : f.Perm g := (List.perm_ext_iff_of_nodup (nd f hf) (nd g hg)).mpr fun t =>
    ⟨key f g hf cf hg cg h t, key g f hg cg hf cf h.symm t⟩
  rw [List.pairwise_map] at hf hg
  exact hperm.eq_of_pairwise (fun a b _ _ h1 h2 => absurd (O.adm.trans _ _ _ h1 h2) (O.adm.irrefl _)) hf hg

theorem OutPoly.ne_zero {O : OKind} {p : Nat} [Fact p.Prime] {f : Poly n} (h : OutPoly O p f) : toMv p f ≠ 0 := by
  intro h0
  exact h.ne (terms_unique (O := O) f [] h.sorted h.coeff List.Pairwise.nil (by simp) h0)

theorem res_unique {O : OKind} {p : Nat} [Fact p.Prime] {r r' : Option (Poly n)}
    (h : ∀ q, r = some q → OutPoly O p q) (h' : ∀ q, r' = some q → OutPoly O p q) (he : resMv p r = resMv p r') : r = r' := by
  cases r with
  | none =>
    cases r' with
    | none => rfl
    | some q' => exact absurd he.symm (h' q' rfl).ne_zero
  | some q =>
    cases r' with
    | none => exact absurd he (h q rfl).ne_zero
    | some q' =>
      have a := h q rfl
      have b := h' q' rfl
      rw [terms_unique (O := O) q q' a.sorted a.coeff b.sorted b.coeff he]

end Verif.F4
