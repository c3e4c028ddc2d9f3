import Verif.EndToEnd
import Verif.NormalForm

/-! The path of `msolve -n k` over a prime field, with and without `-i`, from the input file to the printed normal forms:
main.c 343-483, msolve.c 4148-4233, print_ff_nf_data (iofiles.c 314-337).  The parts are the models of the other modules. -/

namespace Verif.EndToEndNf

open Verif.Orders Verif.Import Verif.Normalize Verif.Parse Verif.F4 Verif.Spec Verif.EndToEnd

/-- One polynomial to be reduced, msolve.c 4211-4212: import of the terms and sort (io.c 296-371); it is not normalised. -/
def ImportTbr (nv nev p : ℕ) (f : List (ℤ × List ℤ)) (g : Poly nv) : Prop :=
  ∃ σ cf, SortPerm nv nev (f.map (importTerm nv nev p)) σ ∧
    sortTerms f.length (fun i => (f.map (importTerm nv nev p)).getD i (0, fun _ => 0)) σ = some cf ∧
    g = (List.range f.length).map fun i => (monOf nv nev (cf i).2, (cf i).1)

/-- One generator with `-i`: import of the terms, sort, `normalize_initial_basis` in engine.c 99; F4 does not run. -/
def ImportOnce (nv nev p : ℕ) (f : List (ℤ × List ℤ)) (g : Poly nv) : Prop :=
  ∃ σ cf cs, SortPerm nv nev (f.map (importTerm nv nev p)) σ ∧
    sortTerms f.length (fun i => (f.map (importTerm nv nev p)).getD i (0, fun _ => 0)) σ = some cf ∧
    normInit (2 * ffBits p) (ffBits p) p ((List.range f.length).map fun i => (cf i).1) = some cs ∧
    g = ((List.range f.length).map fun i => monOf nv nev (cf i).2).zip cs

/-- The polynomials used for the reduction, msolve.c 4192-4205: with `-i` (`isGb`) the generators in the order of
`initial_input_cmp` (only a permutation is assumed), otherwise the result of F4 as in C73. -/
def Reducers (isGb : Bool) (nv nev p : ℕ) (im : List (List (ℤ × List ℤ))) (G : List (Poly nv)) : Prop :=
  match isGb with
  | true => ∃ F0, List.Forall₂ (ImportOnce nv nev p) im F0 ∧ G.Perm F0
  | false => ∃ (F0 F : List (Poly nv)) (C : Cfg nv) (s : F4.St nv), List.Forall₂ (ImportPoly nv nev p) im F0 ∧ F.Perm F0 ∧
      C.ord = ordKind nev ∧ C.p = p ∧ Sorts C ∧ Reach C F s ∧ done s ∧ Final C s G

/-- `print_ff_nf_data` with `print_gb = 2`, iofiles.c 157-310, 314-337: no comments, `0` for `NULL`. -/
def printNf {n : ℕ} (names : List (List Char)) (nev : ℕ) (N : List (Option (Poly n))) : List Char :=
  printPolys names (ebl nev) (N.map fun r => stored nev (r.getD []))

/-- `msolve -n k -e nev` on an input file over a prime field prints `out`; `isGb` for the option `-i`.  The generators are all
polynomials but the last `k`; `initialize_gba_input_data` gets the number `k` and all polynomials (msolve.c 4177-4183, C15), the
last `k` polynomials are imported afterwards (msolve.c 4211).  The assumptions are those of `EndToEnd.Run`.  A failing step is no
execution: if no generators are left, msolve.c 4185 writes through a null pointer. -/
def Run (isGb : Bool) (nev k : ℕ) (input out : List Char) : Prop :=
  ∃ (names : List (List Char)) (p : ℕ) (ps im : List (List (ℤ × List ℤ))) (ng : ℤ) (G T : List (Poly names.length))
    (N : List (Option (Poly names.length))),
    readFile input = some ⟨names, p, .ff ps⟩ ∧ 0 < k ∧ nev < names.length ∧
    importGens (fun f => invalid (f.map Prod.fst)) k ps = .ok im ng ∧
    Reducers isGb names.length nev p im G ∧
    List.Forall₂ (ImportTbr names.length nev p) (ps.drop (ps.length - k)) T ∧
    NfRun (ordKind nev) p G (List.range G.length) T N ∧
    out = printNf names nev N

variable {n : ℕ}

/-! ### Import -/

/-- What a polynomial to be reduced becomes. -/
theorem importTbr_spec {nev p : ℕ} (hnev : nev < n) (hp : p.Prime) (hp2 : p < 2 ^ 31) {ts : List Text.Mon}
    (h0 : ∀ t ∈ ts.head?, Text.FirstNum t) (hd : (ts.map (Text.Mon.vec n)).Nodup) (hdeg : ∀ t ∈ ts, ∑ i, t.vec n i < 65536)
    {g : Poly n} (h : ImportTbr n nev p (ffPoly n p ts) g) : InPoly p g ∧ toMv p g = Text.poly p n ts := by
  have hlen : (ffPoly n p ts).length = ts.length := by cases ts <;> simp [ffPoly]
  obtain ⟨σ, cf, hσ, hcf, rfl⟩ := h
  rw [import_terms hp.pos hp2 h0] at hσ hcf
  rw [hlen] at hcf ⊢
  obtain ⟨ts', hperm, hmap, -⟩ := sorted_terms hσ hcf
  have hg : ((List.range ts.length).map fun i => (monOf n nev (cf i).2, (cf i).1)) = ts'.map fun t => (t.vec n, redCoef p t) := by
    have := congrArg (List.map fun x : ℕ × (ℕ → ℕ) => (monOf n nev x.2, x.1)) hmap
    simp only [List.map_map, Function.comp_def] at this
    rw [this]
    apply List.map_congr_left
    intro t ht
    rw [monOf_setEv hnev _ (hdeg t (hperm.mem_iff.mp ht))]
  rw [hg]
  refine ⟨⟨?_, ?_⟩, ?_⟩
  · rw [List.map_map]
    have hcomp : (Prod.fst ∘ fun t : Text.Mon => (t.vec n, redCoef p t)) = Text.Mon.vec n := rfl
    rw [hcomp]
    exact (hperm.map _).nodup_iff.mpr hd
  · intro t ht
    obtain ⟨t, -, rfl⟩ := List.mem_map.mp ht
    exact redCoef_lt hp.pos t
  · have hs : Text.poly p n ts = (ts'.map (Text.Mon.poly p n)).sum := ((hperm.map _).sum_eq).symm
    rw [hs]
    unfold toMv
    rw [List.map_map]
    congr 1
    apply List.map_congr_left
    intro t _
    simp only [Function.comp_apply, Text.Mon.poly, fs]
    rw [redCoef_cast hp.pos]

/-- An imported generator can be taken as a polynomial to be reduced: only the sort matters. -/
theorem importTbr_exists {nev p : ℕ} (hnev : nev < n) (hp : p.Prime) (hp2 : p < 2 ^ 31) {ts : List Text.Mon} (hne : ts ≠ [])
    (h0 : ∀ t ∈ ts.head?, Text.FirstNum t) (hE : Text.Expanded p n ts) : ∃ g, ImportTbr n nev p (ffPoly n p ts) g := by
  obtain ⟨g, σ, cf, cs, cs', hσ, hcf, -⟩ := importPoly_exists (n := n) hnev hp hp2 hne h0 hE
  exact ⟨_, σ, cf, hσ, hcf, rfl⟩

/-- The second normalisation changes nothing. -/
theorem importOnce_poly {nev p : ℕ} (hp : p.Prime) (hp2 : p < 2 ^ 31) {ts : List Text.Mon} (hne : ts ≠ [])
    (h0 : ∀ t ∈ ts.head?, Text.FirstNum t) (hE : Text.Expanded p n ts) {g : Poly n} (h : ImportOnce n nev p (ffPoly n p ts) g) :
    ImportPoly n nev p (ffPoly n p ts) g := by
  have hlen : (ffPoly n p ts).length = ts.length := by cases ts <;> simp [ffPoly]
  obtain ⟨σ, cf, cs, hσ, hcf, hn1, rfl⟩ := h
  refine ⟨σ, cf, cs, cs, hσ, hcf, hn1, ?_, rfl⟩
  rw [import_terms hp.pos hp2 h0] at hσ hcf
  rw [hlen] at hcf hn1
  obtain ⟨ts', hperm, hmap, -⟩ := sorted_terms hσ hcf
  have hc1 : (List.range ts.length).map (fun i => (cf i).1) = ts'.map (redCoef p) := by
    have := congrArg (List.map Prod.fst) hmap
    simpa [Function.comp_def] using this
  rw [hc1] at hn1
  have hts' : ts' ≠ [] := by
    rintro rfl
    exact hne (List.nil_perm.mp hperm)
  obtain ⟨t0, r, rfl⟩ := List.exists_cons_of_ne_nil hts'
  have hpos : 0 < redCoef p t0 := by
    have h1 := hE.coeff t0 (hperm.mem_iff.mp List.mem_cons_self)
    have h2 := Int.emod_nonneg t0.numer (show (p : ℤ) ≠ 0 by have := hp.pos; omega)
    have h3 : t0.numer % p ≠ 0 := fun h => h1 (Int.dvd_of_emod_eq_zero h)
    unfold redCoef
    omega
  obtain ⟨hw, ho⟩ := ffBits_width hp hp2
  have hsq : (p - 1) * (p - 1) < 2 ^ 63 :=
    lt_of_le_of_lt (Nat.mul_le_mul (show p - 1 ≤ 2 ^ 31 - 1 by omega) (show p - 1 ≤ 2 ^ 31 - 1 by omega)) (by norm_num)
  rw [List.map_cons] at hn1
  obtain ⟨inv, i1, i2, i3⟩ := normInit_spec (r := r.map (redCoef p)) hw ho hsq hp hpos (by
    rw [← List.map_cons]
    intro b hb
    obtain ⟨t, -, rfl⟩ := List.mem_map.mp hb
    exact redCoef_lt hp.pos t)
  rw [i3] at hn1
  obtain rfl := Option.some.inj hn1
  have hhead : redCoef p t0 * inv % p = 1 := by rw [Nat.mul_comm]; exact i2
  rw [List.map_cons, hhead]
  have hlt : ∀ b ∈ 1 :: (r.map (redCoef p)).map fun b => b * inv % p, b < p := by
    intro b hb
    rcases List.mem_cons.mp hb with rfl | hb
    · exact hp.one_lt
    · obtain ⟨t, -, rfl⟩ := List.mem_map.mp hb
      exact Nat.mod_lt _ hp.pos
  obtain ⟨inv', j1, j2, j3⟩ := normInit_spec (r := (r.map (redCoef p)).map fun b => b * inv % p) hw ho hsq hp Nat.one_pos hlt
  have hinv' : inv' = 1 := by
    rw [Nat.mul_one, Nat.mod_eq_of_lt j1] at j2
    exact j2
  subst hinv'
  rw [j3]
  congr 1
  conv_rhs => rw [← List.map_id (1 :: _)]
  apply List.map_congr_left
  intro b hb
  rw [Nat.mul_one, Nat.mod_eq_of_lt (hlt b hb), id]

theorem importOnce_exists {nev p : ℕ} (hnev : nev < n) (hp : p.Prime) (hp2 : p < 2 ^ 31) {ts : List Text.Mon} (hne : ts ≠ [])
    (h0 : ∀ t ∈ ts.head?, Text.FirstNum t) (hE : Text.Expanded p n ts) : ∃ g, ImportOnce n nev p (ffPoly n p ts) g := by
  obtain ⟨g, σ, cf, cs, cs', hσ, hcf, hn1, -⟩ := importPoly_exists (n := n) hnev hp hp2 hne h0 hE
  exact ⟨_, σ, cf, cs, hσ, hcf, hn1, rfl⟩

/-! ### Normal forms and degrees -/

theorem isNormalForm_ideal {K : Type*} [Field K] {m : MonomialOrder (Fin n)} {I : Ideal (MvPolynomial (Fin n) K)}
    {G : Set (MvPolynomial (Fin n) K)} (hG : IsGroebner m I G) {f r : MvPolynomial (Fin n) K} (h : IsNormalForm m G f r) :
    IsNormalForm m (I : Set (MvPolynomial (Fin n) K)) f r := by
  refine ⟨?_, ?_⟩
  · rw [Ideal.span_eq]
    exact (Ideal.span_le.mpr hG.1) h.1
  · intro u hu g hg hg0 hle
    obtain ⟨g', hg', hg0', hle'⟩ := hG.2 g hg hg0
    exact h.2 u hu g' hg' hg0' (hle'.trans hle)

/-- A graded order: normal forms do not have larger degrees. -/
theorem normalForm_degree {K : Type*} [Field K] {I : Ideal (MvPolynomial (Fin n) K)} {f r : MvPolynomial (Fin n) K}
    (h : IsNormalForm OKind.drl.mo (I : Set (MvPolynomial (Fin n) K)) f r) : r.totalDegree ≤ f.totalDegree := by
  by_contra hlt
  push Not at hlt
  obtain ⟨h1, h2⟩ := h
  rw [Ideal.span_eq] at h1
  have hex : ∃ u ∈ r.support, f.totalDegree < u.sum fun _ e => e := by
    by_contra hno
    push Not at hno
    exact absurd (Finset.sup_le hno) (by unfold MvPolynomial.totalDegree at hlt ⊢; omega)
  obtain ⟨u, hu, hud⟩ := hex
  have big : ∀ v : Fin n →₀ ℕ, f.totalDegree < (v.sum fun _ e => e) → f.coeff v = 0 := by
    intro v hv
    by_contra hc
    exact absurd (MvPolynomial.le_totalDegree (MvPolynomial.mem_support_iff.mpr hc)) (by omega)
  have hsu : u ∈ (f - r).support := by
    rw [MvPolynomial.mem_support_iff, MvPolynomial.coeff_sub, big u hud, zero_sub, neg_ne_zero]
    exact MvPolynomial.mem_support_iff.mp hu
  have hd : f - r ≠ 0 := by
    intro h0
    rw [h0] at hsu
    simp at hsu
  have hle := OKind.drl.mo.le_degree hsu
  set w := OKind.drl.mo.degree (f - r) with hw
  have hws : w ∈ (f - r).support := OKind.drl.mo.degree_mem_support hd
  have hwd : f.totalDegree < w.sum fun _ e => e := by
    refine lt_of_lt_of_le hud ?_
    have hle' : u = w ∨ Drl (u : Fin n → ℕ) (w : Fin n → ℕ) := hle
    rcases hle' with rfl | hle'
    · exact le_refl _
    · rw [Finsupp.sum_fintype _ _ (by simp), Finsupp.sum_fintype _ _ (by simp)]
      rcases hle' with h | h
      · exact h.le
      · exact h.1.le
  have hwr : w ∈ r.support := by
    rw [MvPolynomial.mem_support_iff, MvPolynomial.coeff_sub, big w hwd, zero_sub, neg_ne_zero] at hws
    exact MvPolynomial.mem_support_iff.mpr hws
  exact h2 w hwr _ h1 hd (le_refl _)

end Verif.EndToEndNf
