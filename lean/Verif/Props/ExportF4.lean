import Verif.ExportF4
import Verif.Props.EndToEnd

/-!
C77: `export_f4` over prime fields, from the input arrays to the output arrays.
-/
namespace Verif.Props
namespace ExportF4

open Verif.Orders Verif.Import Verif.Normalize Verif.F4 Verif.Spec Verif.EndToEnd Verif.Groebner Verif.ExportF4
open Verif.Parse (ffPoly)

variable {n : ℕ}

/-- The ideal generated by the polynomials in the arrays. -/
noncomputable def arrayIdeal (p : ℕ) (fs : List (List (ℤ × (Fin n → ℕ)))) : Ideal (MvPolynomial (Fin n) (ZMod p)) :=
  Ideal.span { q | ∃ f ∈ fs, q = apoly p f }

theorem expanded {p : ℕ} (hp : 0 < p) {fs : List (List (ℤ × (Fin n → ℕ)))} (h : ArraysOk p fs) :
    ∀ ts ∈ fs.map (asText p), Text.Expanded p n ts := by
  intro ts hts
  obtain ⟨f, hf, rfl⟩ := List.mem_map.mp hts
  refine ⟨?_, ?_, ?_⟩
  · intro t ht
    obtain ⟨x, hx, rfl⟩ := List.mem_map.mp ht
    rw [asText_numer hp]
    intro hd
    exact h.coeff f hf x hx ((Int.dvd_iff_emod_eq_zero).mpr (by
      have := Int.emod_eq_zero_of_dvd hd
      rwa [Int.emod_emod_of_dvd _ (dvd_refl _)] at this))
  · unfold asText
    rw [List.map_map]
    have : (Text.Mon.vec n ∘ fun t : ℤ × (Fin n → ℕ) => Parse.printMon (List.replicate n []) (t.1 % (p : ℤ)).toNat (List.ofFn t.2)) = Prod.snd :=
      funext fun t => asText_vec p t
    rw [this]
    exact h.distinct f hf
  · intro t ht
    obtain ⟨x, hx, rfl⟩ := List.mem_map.mp ht
    rw [asText_vec]
    exact h.deg f hf x hx

theorem ideal_eq {p : ℕ} (hp : 0 < p) (fs : List (List (ℤ × (Fin n → ℕ)))) :
    EndToEnd.inputIdeal n p (fs.map (asText p)) = arrayIdeal p fs := by
  unfold EndToEnd.inputIdeal arrayIdeal
  congr 1
  ext q
  constructor
  · rintro ⟨ts, hts, rfl⟩
    obtain ⟨f, hf, rfl⟩ := List.mem_map.mp hts
    exact ⟨f, hf, asText_poly hp f⟩
  · rintro ⟨f, hf, rfl⟩
    exact ⟨_, List.mem_map_of_mem hf, (asText_poly hp f).symm⟩

/-- All generators are imported. -/
theorem import_all {p : ℕ} {fs : List (List (ℤ × (Fin n → ℕ)))} (h : ArraysOk p fs) :
    importGens bad 0 (fs.map rawPoly) = .ok (fs.map rawPoly) (fs.map rawPoly).length := by
  have := C15_no_generator_lost_partial bad (fs.map rawPoly) [] (by simpa using h.some) (by
    intro g hg
    obtain ⟨f, hf, rfl⟩ := List.mem_map.mp hg
    simp only [bad, invalid, rawPoly, List.any_eq_false, List.mem_map, beq_iff_eq]
    rintro x ⟨y, ⟨t, ht, rfl⟩, rfl⟩ h0
    simp only at h0
    exact h.coeff f hf t ht (h0 ▸ dvd_zero _)) (by simp)
  rwa [List.append_nil] at this

theorem not_bad {p : ℕ} {fs : List (List (ℤ × (Fin n → ℕ)))} (h : ArraysOk p fs) : ∀ f ∈ fs.map rawPoly, bad f = false := by
  intro g hg
  obtain ⟨f, hf, rfl⟩ := List.mem_map.mp hg
  simp only [bad, invalid, rawPoly, List.any_eq_false, List.mem_map, beq_iff_eq]
  rintro x ⟨y, ⟨t, ht, rfl⟩, rfl⟩ h0
  simp only at h0
  exact h.coeff f hf t ht (h0 ▸ dvd_zero _)

theorem import_text {mo : ℤ} {nev p : ℕ} (hmo : nev = 0 → mo ≠ 1) (hp : 0 < p) (hp2 : p < 2 ^ 31) {fs : List (List (ℤ × (Fin n → ℕ)))}
    (h : ArraysOk p fs) {F : List (Poly n)} :
    List.Forall₂ (ImportPolyMo mo n nev p) (fs.map rawPoly) F ↔
      List.Forall₂ (ImportPoly n nev p) ((fs.map (asText p)).map (ffPoly n p)) F := by
  rw [List.map_map, List.forall₂_map_left_iff, List.forall₂_map_left_iff, List.forall₂_iff_get, List.forall₂_iff_get]
  refine and_congr_right fun _ => forall_congr' fun i => forall_congr' fun h1 => forall_congr' fun h2 => ?_
  rw [importPolyMo_iff hmo, importPoly_raw hp hp2 (h.range _ (List.get_mem fs ⟨i, h1⟩))]
  rfl

/-- The parts of an execution. -/
theorem basis_parts {mo : ℤ} {nev p : ℕ} {rgb : Bool} (hmo : nev = 0 → mo ≠ 1) (hp : p.Prime) (hp2 : p < 2 ^ 31)
    {fs : List (List (ℤ × (Fin n → ℕ)))} (h : ArraysOk p fs) {G : List (Poly n)} (hG : Basis mo nev p rgb (fs.map rawPoly) G) :
    nev < n ∧ ∃ (F : List (Poly n)) (C : Cfg n) (s : F4.St n), (∀ f ∈ F, PolyOk (ordKind nev) p f) ∧
      Ideal.span { g | ∃ f ∈ F, g = toMv p f } = arrayIdeal p fs ∧ CfgOk C ∧ C.ord = ordKind nev ∧ C.p = p ∧ Reach C F s ∧ done s ∧
      if rgb then Final C s G else ∃ L, finalLmps s = some L ∧ G = L.map fun k => s.els.getD k [] := by
  obtain ⟨im, ng, F0, F, C, s, h1, h2, h3, h4, h5, h6, h7, h8, h9, h10⟩ := hG
  rw [import_all h] at h1
  injection h1 with e1 e2
  subst e1
  rw [import_text hmo hp.pos hp2 h] at h3
  rw [ordKindMo_eq hmo] at h5
  obtain ⟨k1, k2⟩ := EndToEnd.import_ideal h2 hp hp2 (by
    intro ts hts
    obtain ⟨f, hf, rfl⟩ := List.mem_map.mp hts
    unfold asText
    simpa using h.terms f hf) (by
    intro ts hts
    obtain ⟨f, hf, rfl⟩ := List.mem_map.mp hts
    exact asText_first hp.pos hp2 f) (expanded hp.pos h) h3
  refine ⟨h2, F, C, s, fun f hf => k1 f (h4.mem_iff.mp hf), ?_, EndToEnd.Run_cfg h7 (h6 ▸ hp) (h6 ▸ hp2), h5, h6, h8, h9, h10⟩
  rw [← ideal_eq hp.pos, ← k2]
  congr 1
  ext g
  exact exists_congr fun f => and_congr_left' h4.mem_iff

/-! ### The output arrays -/

theorem toInt32_small {x : ℤ} (h0 : 0 ≤ x) (h1 : x < 2 ^ 31) : toInt32 x = x := by
  unfold toInt32
  simp only
  rw [Int.emod_eq_of_lt h0 (by omega), if_pos h1]

/-- A basis element as a list of terms with integer coefficients. -/
def terms (g : Poly n) : List (ℤ × (Fin n → ℕ)) := g.map fun t => ((t.2 : ℤ), t.1)

theorem terms_poly (p : ℕ) (g : Poly n) : apoly p (terms g) = toMv p g := by
  unfold apoly terms toMv
  rw [List.map_map]
  congr 1
  apply List.map_congr_left
  intro t _
  simp [fs]

theorem exportPolys_eq {nev : ℕ} (hnev : nev < n) : ∀ G : List (Poly n), (∀ g ∈ G, ∀ t ∈ g, ∀ i, t.1 i < 65536) →
    exportPolys (evl n nev) (ebl nev) (G.map fun g => some (g.map fun t => setEv n nev (ext t.1) fun _ => 0)) =
      (G.map List.length, G.flatMap fun g => g.flatMap fun t => List.ofFn t.1) := by
  intro G
  induction G with
  | nil => intro _; rfl
  | cons g G ih =>
    intro he
    rw [List.map_cons, exportPolys, ih fun g hg => he g (List.mem_cons_of_mem _ hg)]
    simp only [List.length_map, List.map_cons, List.flatMap_cons, Prod.mk.injEq, true_and, List.map_map]
    congr 1
    rw [← List.flatMap_def]
    apply List.flatMap_congr
    intro t ht
    simp only [Function.comp_apply]
    rw [exportEv_setEv n nev (by omega)]
    · apply List.ext_getElem
      · simp
      · intro i h1 h2
        simp only [List.length_ofFn] at h2
        rw [List.getElem_map, List.getElem_range, List.getElem_ofFn]
        exact ext_val t.1 ⟨i, h2⟩
    · intro i hi
      rw [show i = (⟨i, hi⟩ : Fin n).val from rfl, ext_val]
      exact he g List.mem_cons_self t ht _

theorem ofFn_toInt32 (u : Fin n → ℕ) (h : ∀ i, u i < 65536) :
    (List.ofFn u).map (fun x : ℕ => toInt32 (x : ℤ)) = List.ofFn fun i => (u i : ℤ) := by
  rw [List.map_ofFn]
  refine congrArg List.ofFn (funext fun i => ?_)
  rw [Function.comp_apply]
  have := h i
  generalize u i = x at this ⊢
  exact toInt32_small (Int.natCast_nonneg x) (by omega)

theorem exportArrays_of {nev : ℕ} (hnev : nev < n) {G : List (Poly n)} (he : ∀ g ∈ G, ∀ t ∈ g, ∀ i, t.1 i < 65536)
    (hc : ∀ g ∈ G, ∀ t ∈ g, t.2 < 2 ^ 31) : exportArrays nev G = Arrays.of (G.map terms) := by
  unfold exportArrays
  rw [exportPolys_eq hnev G he]
  unfold Arrays.of
  simp only [Arrays.mk.injEq]
  refine ⟨?_, ?_, ?_⟩
  · rw [List.map_map]
    apply List.map_congr_left
    intro g _
    simp [terms]
  · simp only [List.map_flatMap, List.flatMap_map]
    apply List.flatMap_congr
    intro g hg
    unfold terms
    rw [List.flatMap_map]
    apply List.flatMap_congr
    intro t ht
    exact ofFn_toInt32 t.1 (he g hg t ht)
  · rw [List.flatMap_map]
    apply List.flatMap_congr
    intro g hg
    unfold terms
    rw [List.map_map]
    apply List.map_congr_left
    intro t ht
    have := hc g hg t ht
    generalize ht' : t.2 = c at this
    simp only [Function.comp_apply, ht']
    rw [toInt32_small (Int.natCast_nonneg c) (by omega)]

/-- The exponents of a polynomial are bounded by its degree. -/
theorem exponents_lt {O : OKind} {p : ℕ} [Fact p.Prime] {g : Poly n} (hg : PolyOk O p g) (hd : (toMv p g).totalDegree < 65536) :
    ∀ t ∈ g, ∀ i, t.1 i < 65536 := by
  intro t ht i
  have hc := toMv_coeff p g hg.sorted t ht
  have hsupp : Verif.F4.fs t.1 ∈ (toMv p g).support := by
    rw [MvPolynomial.mem_support_iff, hc]
    intro h0
    rw [ZMod.natCast_eq_zero_iff] at h0
    have := hg.coeff t ht
    exact absurd (Nat.le_of_dvd this.1 h0) (by omega)
  have := MvPolynomial.le_totalDegree hsupp
  have hi : t.1 i ≤ (Verif.F4.fs t.1).sum fun _ e => e := by
    rw [Finsupp.sum_fintype _ _ (by simp)]
    exact Finset.single_le_sum (f := fun i => Verif.F4.fs t.1 i) (fun _ _ => Nat.zero_le _) (Finset.mem_univ i)
  omega

/-- What is said of each element of the output: it has terms, the coefficients are between one and `p - 1`, the first one is one, the
monomials are decreasing. -/
structure ElementOk (O : OKind) (p : ℕ) (g : List (ℤ × (Fin n → ℕ))) : Prop where
  lead : ∀ t ∈ g.head?, t.1 = 1
  terms : g ≠ []
  coeff : ∀ t ∈ g, 0 < t.1 ∧ t.1 < p
  sorted : g.Pairwise fun a b => O.lt b.2 a.2

theorem elementOk {O : OKind} {p : ℕ} {g : Poly n} (h : PolyOk O p g) : ElementOk O p (terms g) := by
  obtain ⟨r, hr⟩ := h.head
  refine ⟨?_, ?_, ?_, ?_⟩
  · rw [hr]
    simp [terms]
  · rw [hr]
    simp [terms]
  · intro t ht
    obtain ⟨x, hx, rfl⟩ := List.mem_map.mp ht
    have := h.coeff x hx
    simp only
    omega
  · unfold terms
    rw [List.pairwise_map]
    have := h.sorted
    rw [List.pairwise_map] at this
    exact this

theorem head_terms {O : OKind} {p : ℕ} {g : Poly n} (h : PolyOk O p g) : ∀ t ∈ (terms g).head?, t.2 = Verif.F4.lead g := by
  obtain ⟨r, hr⟩ := h.head
  rw [hr]
  simp only [terms, List.map_cons, List.head?_cons, Option.mem_def, Option.some.injEq]
  rintro t rfl
  rfl

theorem set_terms (p : ℕ) (G : List (Poly n)) : { q | ∃ g ∈ G.map terms, q = apoly p g } = { q | ∃ g ∈ G, q = toMv p g } := by
  ext q
  constructor
  · rintro ⟨g', hg', rfl⟩
    obtain ⟨g, hg, rfl⟩ := List.mem_map.mp hg'
    exact ⟨g, hg, terms_poly p g⟩
  · rintro ⟨g, hg, rfl⟩
    exact ⟨_, List.mem_map_of_mem hg, (terms_poly p g).symm⟩

theorem lens_sum {G : List (List (ℤ × (Fin n → ℕ)))} : (Arrays.of G).lens.sum = (Arrays.of G).cfs.length := by
  simp [Arrays.of, List.length_flatMap]

/-- **C77**: the arrays returned by `export_f4` with `reduce_gb = 1` describe the reduced Gröbner basis of the ideal generated by the polynomials
in the input arrays, smallest leading monomial first; the return value is the number of terms.  The order is the block order if
`elim_block_len` is positive, else the degree reverse lexicographical one.  Missing: `mon_order = 1`, where it is false (`C77_lex_undefined`). -/
theorem C77_reduced_partial {mo : ℤ} {nev p : ℕ} (hmo : nev = 0 → mo ≠ 1) (hp : p.Prime) (hp2 : p < 2 ^ 31)
    {fs : List (List (ℤ × (Fin n → ℕ)))} (h : ArraysOk p fs) {O : OKind} (hO : O = if nev = 0 then .drl else .be nev)
    (hdeg : have : Fact p.Prime := ⟨hp⟩
      ∀ B, IsReducedGroebner O.mo (arrayIdeal p fs) B → ∀ g ∈ B, g.totalDegree < 65536)
    {cfs' : List ℤ} {out : Arrays} {ret : ℕ} (hr : Call n mo nev p true (Arrays.of fs) cfs' out ret) :
    have : Fact p.Prime := ⟨hp⟩
    ∃ gs : List (List (ℤ × (Fin n → ℕ))), out = Arrays.of gs ∧ ret = out.cfs.length ∧ (∀ g ∈ gs, ElementOk O p g) ∧
      gs.Pairwise (fun a b => ∀ s ∈ a.head?, ∀ t ∈ b.head?, O.lt s.2 t.2) ∧
      IsReducedGroebner O.mo (arrayIdeal p fs) { q | ∃ g ∈ gs, q = apoly p g } := by
  have hF : Fact p.Prime := ⟨hp⟩
  obtain ⟨gens, G, h1, h2, -, h3, h4⟩ := hr
  rw [readGens_of] at h1
  obtain rfl := Option.some.inj h1
  obtain ⟨hnev, F, C, s, k1, k2, k3, k4, k5, k6, k7, k8⟩ := basis_parts hmo hp hp2 h h2
  rw [if_pos rfl] at k8
  obtain ⟨O', p', m, u, v⟩ := C
  simp only at k4 k5
  have hO' : O' = O := by rw [k4, hO]; rfl
  subst hO'
  subst k5
  rw [← k4] at k1
  obtain ⟨j1, j2, j3⟩ := (C44_reduced k3 k1).2 s G k6 k7 k8
  simp only at j1 j2 j3
  rw [k2] at j1
  have hout : out = Arrays.of (G.map terms) := by
    rw [h3]
    refine exportArrays_of hnev (fun g hg => exponents_lt (j2 g hg) (hdeg _ j1 _ ⟨g, hg, rfl⟩)) fun g hg t ht => ?_
    have := (j2 g hg).coeff t ht
    omega
  refine ⟨G.map terms, hout, ?_, ?_, ?_, ?_⟩
  · rw [h4, hout, lens_sum]
  · intro g' hg'
    obtain ⟨g, hg, rfl⟩ := List.mem_map.mp hg'
    exact elementOk (j2 g hg)
  · rw [List.pairwise_map]
    refine List.Pairwise.imp_of_mem ?_ j3
    intro a b ha hb hab s hs t ht
    rw [head_terms (j2 a ha) s hs, head_terms (j2 b hb) t ht]
    exact hab
  · rw [set_terms]
    exact j1

/-- **C77**: with `reduce_gb = 0` the arrays describe a minimal Gröbner basis: no leading monomial divides another one.  The exponents in the
basis are assumed to be below `2^16`. -/
theorem C77_minimal_partial {mo : ℤ} {nev p : ℕ} (hmo : nev = 0 → mo ≠ 1) (hp : p.Prime) (hp2 : p < 2 ^ 31)
    {fs : List (List (ℤ × (Fin n → ℕ)))} (h : ArraysOk p fs) {O : OKind} (hO : O = if nev = 0 then .drl else .be nev)
    (hdeg : ∀ G : List (Poly n), Basis mo nev p false (fs.map rawPoly) G → ∀ g ∈ G, ∀ t ∈ g, ∀ i, t.1 i < 65536)
    {cfs' : List ℤ} {out : Arrays} {ret : ℕ} (hr : Call n mo nev p false (Arrays.of fs) cfs' out ret) :
    have : Fact p.Prime := ⟨hp⟩
    ∃ gs : List (List (ℤ × (Fin n → ℕ))), out = Arrays.of gs ∧ ret = out.cfs.length ∧ (∀ g ∈ gs, ElementOk O p g) ∧
      gs.Pairwise (fun a b => ∀ s ∈ a.head?, ∀ t ∈ b.head?, ¬ s.2 ≤ t.2 ∧ ¬ t.2 ≤ s.2) ∧
      IsGroebner O.mo (arrayIdeal p fs) { q | ∃ g ∈ gs, q = apoly p g } := by
  have hF : Fact p.Prime := ⟨hp⟩
  obtain ⟨gens, G, h1, h2, -, h3, h4⟩ := hr
  rw [readGens_of] at h1
  obtain rfl := Option.some.inj h1
  have hexp := hdeg G h2
  obtain ⟨hnev, F, C, s, k1, k2, k3, k4, k5, k6, k7, k8⟩ := basis_parts hmo hp hp2 h h2
  rw [if_neg (by decide)] at k8
  obtain ⟨O', p', m, u, v⟩ := C
  simp only at k4 k5
  have hO' : O' = O := by rw [k4, hO]; rfl
  subst hO'
  subst k5
  rw [← k4] at k1
  have hinv := reach_inv k3 k1 k6
  obtain ⟨L, hL, hG⟩ := k8
  obtain ⟨L', hL', hlt, hmin, hcov⟩ := finalLmps_spec hinv
  rw [hL] at hL'
  obtain rfl := Option.some.inj hL'
  have hmem : ∀ k ∈ L, s.els.getD k [] ∈ s.els := by
    intro k hk
    rw [List.getD_eq_getElem _ _ (hlt k hk)]
    exact List.getElem_mem _
  have hok : ∀ g ∈ G, PolyOk O' p' g := by
    intro g hg
    rw [hG] at hg
    obtain ⟨k, hk, rfl⟩ := List.mem_map.mp hg
    exact hinv.ok _ (hmem k hk)
  have hout : out = Arrays.of (G.map terms) := by
    rw [h3]
    refine exportArrays_of hnev hexp fun g hg t ht => ?_
    have := (hok g hg).coeff t ht
    omega
  refine ⟨G.map terms, hout, ?_, ?_, ?_, ?_⟩
  · rw [h4, hout, lens_sum]
  · intro g' hg'
    obtain ⟨g, hg, rfl⟩ := List.mem_map.mp hg'
    exact elementOk (hok g hg)
  · rw [List.pairwise_map]
    have : G.Pairwise fun a b => ¬ Verif.F4.lead a ≤ Verif.F4.lead b ∧ ¬ Verif.F4.lead b ≤ Verif.F4.lead a := by
      rw [hG, List.pairwise_map]
      exact hmin
    refine List.Pairwise.imp_of_mem ?_ this
    intro a b ha hb hab s hs t ht
    rw [head_terms (hok a ha) s hs, head_terms (hok b hb) t ht]
    exact hab
  · rw [set_terms]
    have hgb := inv_groebner hinv k7
    simp only at hgb
    rw [k2] at hgb
    refine ⟨?_, ?_⟩
    · rintro q ⟨g, hg, rfl⟩
      rw [hG] at hg
      obtain ⟨k, hk, rfl⟩ := List.mem_map.mp hg
      exact hgb.1 _ ⟨_, hmem k hk, rfl⟩
    · intro f hf hf0
      obtain ⟨q, ⟨e, he, rfl⟩, _, hle⟩ := hgb.2 f hf hf0
      obtain ⟨i, hi, rfl⟩ := List.mem_iff_getElem.mp he
      obtain ⟨k, hk, hk'⟩ := hcov i hi
      have hkG : s.els.getD k [] ∈ G := by
        rw [hG]
        exact List.mem_map_of_mem hk
      refine ⟨_, ⟨_, hkG, rfl⟩, ?_, le_trans ?_ hle⟩
      · intro h0
        have := (hok _ hkG).monic
        rw [h0] at this
        simp at this
      · rw [(hinv.ok _ he).degree, (hok _ hkG).degree, fs_le]
        rw [List.getD_eq_getElem s.els _ hi] at hk'
        exact hk'

/-- **C77**: there is a result, whether the basis is reduced or not. -/
theorem C77_exists_partial {mo : ℤ} {nev p : ℕ} (rgb : Bool) (hmo : nev = 0 → mo ≠ 1) (hp : p.Prime) (hp2 : p < 2 ^ 31) (hnev : nev < n)
    {fs : List (List (ℤ × (Fin n → ℕ)))} (h : ArraysOk p fs) : ∃ cfs' out ret, Call n mo nev p rgb (Arrays.of fs) cfs' out ret := by
  have hF : Fact p.Prime := ⟨hp⟩
  have hne : ∀ ts ∈ fs.map (asText p), ts ≠ [] := by
    intro ts hts
    obtain ⟨f, hf, rfl⟩ := List.mem_map.mp hts
    unfold asText
    simpa using h.terms f hf
  have h0 : ∀ ts ∈ fs.map (asText p), ∀ t ∈ ts.head?, Text.FirstNum t := by
    intro ts hts
    obtain ⟨f, hf, rfl⟩ := List.mem_map.mp hts
    exact asText_first hp.pos hp2 f
  have hE := expanded hp.pos h
  have key : ∀ l : List (List Text.Mon), (∀ ts ∈ l, ts ∈ fs.map (asText p)) →
      ∃ F0, List.Forall₂ (ImportPoly n nev p) (l.map (ffPoly n p)) F0 := by
    intro l hl
    induction l with
    | nil => exact ⟨[], .nil⟩
    | cons ts l ih =>
      obtain ⟨F0, hF0⟩ := ih fun x hx => hl x (List.mem_cons_of_mem _ hx)
      have hm := hl ts List.mem_cons_self
      obtain ⟨g, hg⟩ := importPoly_exists hnev hp hp2 (hne ts hm) (h0 ts hm) (hE ts hm)
      exact ⟨g :: F0, .cons hg hF0⟩
  obtain ⟨F0, hF0⟩ := key _ fun _ hx => hx
  obtain ⟨k1, -⟩ := EndToEnd.import_ideal hnev hp hp2 hne h0 hE hF0
  have hC := stdCfg_ok (n := n) (ordKind nev) hp hp2 Nat.one_pos
  obtain ⟨s, G, h1, h2, h3⟩ := (C44_reduced hC k1).1 (by
    rintro rfl
    have := hF0.length_eq
    rw [List.length_map, List.length_map, List.length_nil] at this
    exact h.some (List.length_eq_zero_iff.mp this))
  have hb : ∃ G : List (Poly n), Basis mo nev p rgb (fs.map rawPoly) G := by
    cases rgb with
    | true =>
      exact ⟨G, _, _, F0, F0, _, s, import_all h, hnev, (import_text hmo hp.pos hp2 h).mpr hF0, .refl _, by rw [ordKindMo_eq hmo]; rfl, rfl,
        ⟨hC.mnsel, hC.upd, hC.sel, hC.sorted⟩, h1, h2, by rw [if_pos rfl]; exact h3⟩
    | false =>
      obtain ⟨L, hL, -⟩ := h3
      exact ⟨_, _, _, F0, F0, _, s, import_all h, hnev, (import_text hmo hp.pos hp2 h).mpr hF0, .refl _, by rw [ordKindMo_eq hmo]; rfl, rfl,
        ⟨hC.mnsel, hC.upd, hC.sel, hC.sorted⟩, h1, h2, by rw [if_neg (by decide)]; exact ⟨L, hL, rfl⟩⟩
  obtain ⟨G, hG⟩ := hb
  exact ⟨_, _, _, _, G, readGens_of fs, hG, rfl, rfl, rfl⟩

/-- **C77**: with `reduce_gb = 1`, arrays that generate the same ideal give the same result. -/
theorem C77_same_ideal_partial {mo mo' : ℤ} {nev p : ℕ} (hmo : nev = 0 → mo ≠ 1) (hmo' : nev = 0 → mo' ≠ 1) (hp : p.Prime) (hp2 : p < 2 ^ 31)
    {fs fs' : List (List (ℤ × (Fin n → ℕ)))} (h : ArraysOk p fs) (h' : ArraysOk p fs') (hI : arrayIdeal p fs = arrayIdeal p fs')
    {c c' : List ℤ} {out out' : Arrays} {ret ret' : ℕ} (hr : Call n mo nev p true (Arrays.of fs) c out ret)
    (hr' : Call n mo' nev p true (Arrays.of fs') c' out' ret') : out = out' ∧ ret = ret' := by
  obtain ⟨gens, G, h1, h2, -, h3, h4⟩ := hr
  obtain ⟨gens', G', h1', h2', -, h3', h4'⟩ := hr'
  rw [readGens_of] at h1 h1'
  obtain rfl := Option.some.inj h1
  obtain rfl := Option.some.inj h1'
  obtain ⟨hnev, F, C, s, k1, k2, k3, k4, k5, k6, k7, k8⟩ := basis_parts hmo hp hp2 h h2
  obtain ⟨-, F', C', s', k1', k2', k3', k4', k5', k6', k7', k8'⟩ := basis_parts hmo' hp hp2 h' h2'
  rw [if_pos rfl] at k8 k8'
  obtain ⟨O, p', m, u, v⟩ := C
  simp only at k4 k5
  subst k4
  subst k5
  have := C51_deterministic k3 k3' k4'.symm k5'.symm k1 k1' (by rw [k2, k2', hI]) k6 k7 k8 k6' k7' k8'
  subst this
  have : out = out' := by rw [h3, h3']
  subst this
  exact ⟨rfl, by rw [h4, h4']⟩

/-! ### The arrays of the caller -/

/-- The coefficients of the caller after the call. -/
def shifted (p : ℕ) (fs : List (List (ℤ × (Fin n → ℕ)))) : List (List (ℤ × (Fin n → ℕ))) :=
  fs.map fun f => f.map fun t => (if t.1 < 0 then t.1 + p else t.1, t.2)

/-- C77: the call changes the array `cfs` of the caller: `p` is added to the negative coefficients. -/
theorem C77_input_modified {mo : ℤ} {nev p : ℕ} {rgb : Bool} (hp2 : p < 2 ^ 31) {fs : List (List (ℤ × (Fin n → ℕ)))} (h : ArraysOk p fs)
    {cfs' : List ℤ} {out : Arrays} {ret : ℕ} (hr : Call n mo nev p rgb (Arrays.of fs) cfs' out ret) :
    cfs' = (Arrays.of fs).cfs.map fun c => if c < 0 then c + (p : ℤ) else c := by
  obtain ⟨gens, G, h1, -, h2, -⟩ := hr
  rw [readGens_of] at h1
  obtain rfl := Option.some.inj h1
  rw [h2]
  unfold cfsAfter
  simp only
  have hfil : (fs.map rawPoly).filter (fun f => !bad f) = fs.map rawPoly := by
    rw [List.filter_eq_self]
    intro f hf
    rw [not_bad h f hf]
    rfl
  rw [hfil, List.take_length]
  have hw : ((fs.map rawPoly).flatMap fun f =>
      if bad f then f.map Prod.fst else f.map fun t => toInt32 (t.1 + if t.1 < 0 then (p : ℤ) else 0)) =
      (Arrays.of fs).cfs.map fun c => if c < 0 then c + (p : ℤ) else c := by
    unfold Arrays.of
    simp only [List.map_flatMap, List.flatMap_map]
    apply List.flatMap_congr
    intro f hf
    rw [if_neg (by rw [not_bad h _ (List.mem_map_of_mem hf)]; decide)]
    unfold rawPoly
    rw [List.map_map, List.map_map]
    apply List.map_congr_left
    intro t ht
    have := h.range f hf t ht
    simp only [Function.comp_apply]
    split_ifs
    · exact toInt32_small (by omega) (by omega)
    · rw [add_zero]
      exact toInt32_small (by omega) (by omega)
  rw [hw, List.length_map, List.drop_length, List.append_nil]

theorem shifted_of (p : ℕ) (fs : List (List (ℤ × (Fin n → ℕ)))) :
    ({ Arrays.of fs with cfs := (Arrays.of fs).cfs.map fun c => if c < 0 then c + (p : ℤ) else c } : Arrays) = Arrays.of (shifted p fs) := by
  unfold Arrays.of shifted
  simp only [Arrays.mk.injEq, List.map_map, List.flatMap_map, List.map_flatMap]
  refine ⟨?_, ?_, ?_⟩
  · apply List.map_congr_left
    intro f _
    simp
  · trivial
  · rfl

theorem shifted_ok {p : ℕ} (hp : 0 < p) (hp2 : p < 2 ^ 31) {fs : List (List (ℤ × (Fin n → ℕ)))} (h : ArraysOk p fs) : ArraysOk p (shifted p fs) where
  some := by unfold shifted; simpa using h.some
  terms := by
    intro f' hf'
    obtain ⟨f, hf, rfl⟩ := List.mem_map.mp hf'
    simpa using h.terms f hf
  range := by
    intro f' hf' t' ht'
    obtain ⟨f, hf, rfl⟩ := List.mem_map.mp hf'
    obtain ⟨t, ht, rfl⟩ := List.mem_map.mp ht'
    have := h.range f hf t ht
    simp only
    split_ifs <;> omega
  coeff := by
    intro f' hf' t' ht'
    obtain ⟨f, hf, rfl⟩ := List.mem_map.mp hf'
    obtain ⟨t, ht, rfl⟩ := List.mem_map.mp ht'
    have := h.coeff f hf t ht
    simp only
    split_ifs
    · rwa [dvd_add_self_right]
    · exact this
  distinct := by
    intro f' hf'
    obtain ⟨f, hf, rfl⟩ := List.mem_map.mp hf'
    rw [List.map_map]
    exact h.distinct f hf
  deg := by
    intro f' hf' t' ht'
    obtain ⟨f, hf, rfl⟩ := List.mem_map.mp hf'
    obtain ⟨t, ht, rfl⟩ := List.mem_map.mp ht'
    exact h.deg f hf t ht

/-- **C77**: a second call with the changed array gives the same result. -/
theorem C77_second_call_partial {mo : ℤ} {nev p : ℕ} (hmo : nev = 0 → mo ≠ 1) (hp : p.Prime) (hp2 : p < 2 ^ 31)
    {fs : List (List (ℤ × (Fin n → ℕ)))} (h : ArraysOk p fs) {c c' : List ℤ} {out out' : Arrays} {ret ret' : ℕ}
    (hr : Call n mo nev p true (Arrays.of fs) c out ret) (hr' : Call n mo nev p true { Arrays.of fs with cfs := c } c' out' ret') :
    out = out' ∧ ret = ret' := by
  rw [C77_input_modified hp2 h hr, shifted_of] at hr'
  refine C77_same_ideal_partial hmo hmo hp hp2 h (shifted_ok hp.pos hp2 h) ?_ hr hr'
  unfold arrayIdeal shifted
  congr 1
  have key : ∀ f : List (ℤ × (Fin n → ℕ)), apoly p (f.map fun t => (if t.1 < 0 then t.1 + (p : ℤ) else t.1, t.2)) = apoly p f := by
    intro f
    unfold apoly
    rw [List.map_map]
    congr 1
    apply List.map_congr_left
    intro t _
    simp only [Function.comp_apply]
    split_ifs <;> simp
  ext q
  constructor
  · rintro ⟨f, hf, rfl⟩
    exact ⟨_, List.mem_map_of_mem hf, (key f).symm⟩
  · rintro ⟨f', hf', rfl⟩
    obtain ⟨f, hf, rfl⟩ := List.mem_map.mp hf'
    exact ⟨f, hf, key f⟩

/-- C77: the branch for the zero ideal (`return_zero`, f4.c 810-813) is never taken: if all generators are invalid the call ends with
"Bad input data" and `exit(1)`. -/
theorem C77_zero_ideal (gens : List (List (ℤ × List ℤ))) :
    importGens bad 0 gens ≠ .allInvalid ∧ ((∀ f ∈ gens, bad f = true) → importGens bad 0 gens = .stop) := by
  have hle := List.length_filter_le bad gens
  constructor
  · unfold importGens
    simp only [Nat.cast_zero]
    intro h
    split_ifs at h <;> omega
  · intro h
    have : gens.filter bad = gens := List.filter_eq_self.mpr h
    unfold importGens
    simp only [Nat.cast_zero, this]
    rw [if_pos]
    split_ifs <;> omega

/-! ### The lexicographical order -/

/-- C77: with `mon_order = 1` and no elimination block the terms of each generator are stored in increasing order
(`initial_gens_cmp_lex` has the opposite sign of the other two comparisons): the first term, which is taken as the leading one, is
the smallest. -/
theorem C77_lex_ascending {p : ℕ} (hn : 0 < n) {f : List (ℤ × (Fin n → ℕ))} (hd : (f.map Prod.snd).Nodup)
    (hb : ∀ t ∈ f, ∑ i, t.2 i < 65536) {g : Poly n} (h : ImportPolyMo 1 n 0 p (rawPoly f) g) :
    (g.map Prod.fst).Pairwise Lex := by
  obtain ⟨σ, cf, cs, cs', ⟨hσ, hi, hs⟩, hcf, -, -, rfl⟩ := h
  have hl : ((rawPoly f).map (importTerm n 0 p)).length = f.length := by simp [rawPoly]
  have hl' : (rawPoly f).length = f.length := by simp [rawPoly]
  rw [hl] at hσ hi hs
  rw [hl'] at hcf ⊢
  obtain ⟨cf', e, hc⟩ := sortTerms_spec f.length _ σ hσ hi
  rw [hcf] at e
  obtain rfl := Option.some.inj e
  have hget : ∀ j (hj : j < f.length), (((rawPoly f).map (importTerm n 0 p)).getD j (0, fun _ => 0)).2 =
      setEv n 0 (ext (f[j].2)) fun _ => 0 := by
    intro j hj
    rw [List.getD_eq_getElem _ _ (by rw [hl]; exact hj)]
    simp only [rawPoly, List.getElem_map, importTerm]
    congr 1
    funext i
    unfold ext
    split_ifs with h
    · simp [List.getD_eq_getElem?_getD, h]
    · simp [List.getD_eq_getElem?_getD, h]
  have hz : ∀ (l : List (Fin n → ℕ)) (m : List ℕ), ((l.zip m).map Prod.fst).Sublist l := by
    intro l
    induction l with
    | nil => intro m; simp
    | cons a l ih =>
      intro m
      cases m with
      | nil => simp
      | cons b m => simpa using ih m
  refine List.Pairwise.sublist (hz _ _) ?_
  rw [List.pairwise_map]
  refine List.Pairwise.imp_of_mem ?_ List.pairwise_lt_range
  intro i j hi' hj' hij
  rw [List.mem_range] at hi' hj'
  have h1 := hσ i hi'
  have h2 := hσ j hj'
  have h3 := hs i j hij hj'
  rw [hc i hi', hc j hj', hget _ h1, hget _ h2, monOf_setEv hn _ (hb _ (List.getElem_mem _)), monOf_setEv hn _ (hb _ (List.getElem_mem _))]
  rw [hget _ h1, hget _ h2] at h3
  have hsmall : ∀ j (hj : j < f.length) i, f[j].2 i < 65536 := fun j hj i =>
    lt_of_le_of_lt (Orders.le_total' _ i) (hb _ (List.getElem_mem hj))
  obtain ⟨-, c1, c2⟩ := C09_lex_comparison hn f[σ i].2 f[σ j].2 (fun _ => 0) (fun _ => 0) (hsmall _ h1) (hsmall _ h2)
  unfold gensCmpMo at h3
  rw [if_pos ⟨rfl, rfl⟩] at h3
  refine c2.mp (lt_of_le_of_ne h3 fun h0 => ?_)
  have := c1.mp h0
  have he : σ i = σ j := by
    rw [List.nodup_iff_injective_getElem] at hd
    have := @hd ⟨σ i, by simpa using h1⟩ ⟨σ j, by simpa using h2⟩ (by simpa using this)
    simpa using this
  have := hi i hi' j hj' he
  omega

/-- `x+y` as it is imported. -/
def lexPoly : Poly 2 := [(![0, 1], 1), (![1, 0], 1)]

/-- `x+y` as it is passed. -/
def lexInput : List (ℤ × (Fin 2 → ℕ)) := [(1, ![1, 0]), (1, ![0, 1])]

theorem lex_sort {σ : ℕ → ℕ} (h : SortPermMo 1 2 0 ((rawPoly lexInput).map (importTerm 2 0 7)) σ) : σ 0 = 1 ∧ σ 1 = 0 := by
  obtain ⟨h1, h2, h3⟩ := h
  have hl : ((rawPoly lexInput).map (importTerm 2 0 7)).length = 2 := rfl
  rw [hl] at h1 h2 h3
  have a0 := h1 0 (by norm_num)
  have a1 := h1 1 (by norm_num)
  have a01 : σ 0 ≠ σ 1 := fun h => absurd (h2 0 (by norm_num) 1 (by norm_num) h) (by norm_num)
  have h01 := h3 0 1 (by norm_num) (by norm_num)
  have s0 : σ 0 = 1 := by
    by_contra hne
    have e0 : σ 0 = 0 := by omega
    have e1 : σ 1 = 1 := by omega
    rw [e0, e1] at h01
    revert h01
    decide +kernel
  omega

theorem lex_import_eq {g : Poly 2} (h : ImportPolyMo 1 2 0 7 (rawPoly lexInput) g) : g = lexPoly := by
  obtain ⟨σ, cf, cs, cs', hσ, hcf, hn1, hn2, rfl⟩ := h
  obtain ⟨s0, s1⟩ := lex_sort hσ
  have hl' : (rawPoly lexInput).length = 2 := rfl
  rw [hl'] at hcf hn1 ⊢
  obtain ⟨cf', e, hs⟩ := sortTerms_spec 2 _ σ hσ.lt hσ.inj
  rw [hcf] at e
  obtain rfl := Option.some.inj e
  have c0 := hs 0 (by norm_num)
  have c1 := hs 1 (by norm_num)
  rw [s0] at c0
  rw [s1] at c1
  have hl : (List.range 2).map (fun i => (cf i).1) = [1, 1] := by
    simp only [List.range_succ, List.range_zero, List.nil_append, List.cons_append, List.map_cons, List.map_nil, c0, c1]
    decide +kernel
  rw [hl, show normInit (2 * ffBits 7) (ffBits 7) 7 [1, 1] = some [1, 1] by decide +kernel] at hn1
  obtain rfl := Option.some.inj hn1
  rw [show normInit (2 * ffBits 7) (ffBits 7) 7 [1, 1] = some [1, 1] by decide +kernel] at hn2
  obtain rfl := Option.some.inj hn2
  simp only [List.range_succ, List.range_zero, List.nil_append, List.cons_append, List.map_cons, List.map_nil, c0, c1]
  decide +kernel

/-- The sorting of the pairs does not matter for one generator. -/
theorem start_one (C : Cfg n) (h : C.srtUpd [] = []) (f : Poly n) :
    start C [f] = start { C with srtUpd := id } [f] := by
  unfold start Pairs.updateBasis
  simp [Pairs.insertPairs, init0, h]

theorem symLoop_unique (els : List (Poly n)) (lmps : List ℕ) (old : ℕ) : ∀ (a b i : ℕ) (s x y : Verif.F4.Sym n),
    symLoop els lmps old a i s = some x → symLoop els lmps old b i s = some y → x = y := by
  intro a
  induction a with
  | zero =>
    intro b i s x y hx hy
    unfold symLoop at hx hy
    split at hx
    · rename_i h
      rw [h] at hy
      simp only at hy
      rw [Option.some.injEq] at hx hy
      rw [← hx, ← hy]
    · cases hx
  | succ a ih =>
    intro b i s x y hx hy
    cases b with
    | zero =>
      unfold symLoop at hx hy
      split at hy
      · rename_i h
        rw [h] at hx
        simp only at hx
        rw [Option.some.injEq] at hx hy
        rw [← hx, ← hy]
      · cases hy
    | succ b =>
      unfold symLoop at hx hy
      split at hx
      · rename_i h
        rw [h] at hy
        simp only at hy
        rw [Option.some.injEq] at hx hy
        rw [← hx, ← hy]
      · rename_i m h
        rw [h] at hy
        simp only at hx hy
        split_ifs at hx hy
        · exact ih _ _ _ _ _ hx hy
        · exact ih _ _ _ _ _ hx hy

theorem lex_sym : symLoop [lexPoly] [0] (finSym [lexPoly] [0]).ms.length 2 0 (finSym [lexPoly] [0]) =
    some ⟨[![0, 1], ![1, 0]], [![0, 1]], [], [⟨0, 0⟩]⟩ := by
  have h (X : Verif.F4.Sym 2 → List (Fin 2 → ℕ)) (l : List (Fin 2 → ℕ))
      (e : (symLoop [lexPoly] [0] (finSym [lexPoly] [0]).ms.length 2 0 (finSym [lexPoly] [0])).map X = some l) :
      ∀ s, symLoop [lexPoly] [0] (finSym [lexPoly] [0]).ms.length 2 0 (finSym [lexPoly] [0]) = some s → X s = l := by
    intro s hs
    rw [hs] at e
    exact Option.some.inj e
  have h1 := h (·.ms) [![0, 1], ![1, 0]] (by decide +kernel)
  have h2 := h (·.mark) [![0, 1]] (by decide +kernel)
  have h3 := h (fun s => s.rr.map (·.mul)) [] (by decide +kernel)
  have h4 := h (fun s => s.tr.map (·.mul)) [![0, 0]] (by decide +kernel)
  have h5 := h (fun s => s.tr.map fun r => ![r.gen, 0]) [![0, 0]] (by decide +kernel)
  have h6 : (symLoop [lexPoly] [0] (finSym [lexPoly] [0]).ms.length 2 0 (finSym [lexPoly] [0])).isSome = true := by decide +kernel
  obtain ⟨⟨a, b, c, d⟩, hs⟩ := Option.isSome_iff_exists.mp h6
  have h1 := h1 _ hs
  have h2 := h2 _ hs
  have h3 := h3 _ hs
  have h4 := h4 _ hs
  have h5 := h5 _ hs
  simp only [List.map_eq_nil_iff, List.map_eq_singleton_iff] at h1 h2 h3 h4 h5
  obtain ⟨⟨r1, r2⟩, rfl, h4⟩ := h4
  obtain ⟨⟨r1', r2'⟩, hr, h5⟩ := h5
  obtain ⟨rfl, rfl⟩ := by simpa using hr
  have h5 : r2 = 0 := congrFun h5 0
  simp only at h4
  have h4 : r1 = 0 := h4.trans (by decide)
  rw [hs, h1, h2, h3, h4, h5]

/-- The final reduction writes behind the end of the row. -/
theorem lex_la31 : finLoop (par31 7 0 2) (finPivs [lexPoly] [![1, 0], ![0, 1]] [])
    ([⟨0, 0⟩].map fun r => (leadCol [lexPoly] [![1, 0], ![0, 1]] r, convRow [![1, 0], ![0, 1]] (rowPoly [lexPoly] r))) = none := by
  decide +kernel
theorem lex_la17 : finLoop (par17 7 0 2) (finPivs [lexPoly] [![1, 0], ![0, 1]] [])
    ([⟨0, 0⟩].map fun r => (leadCol [lexPoly] [![1, 0], ![0, 1]] r, convRow [![1, 0], ![0, 1]] (rowPoly [lexPoly] r))) = none := by
  decide +kernel

theorem lex_no_final {C : Cfg 2} (hC : C.ord = .lex) (hp : C.p = 7) {G : List (Poly 2)} : ¬ FinalL C [lexPoly] [0] G := by
  rintro ⟨fuel, sy, hcm, rrs, trs, P, R, -, hsy, ⟨hcols, hord⟩, hrr, htr, -, hP, hR, -⟩
  obtain rfl := symLoop_unique _ _ _ _ _ _ _ _ _ hsy lex_sym
  simp only at hcols hord hrr htr
  obtain rfl := List.perm_nil.mp hrr
  obtain rfl := List.perm_singleton.mp htr
  have hh : hcm = [![1, 0], ![0, 1]] := by
    have hlen := hcols.length_eq
    match hcm, hcols, hord, hlen with
    | [a, b], hcols, hord, _ =>
      have hab := List.pairwise_pair.mp hord
      have ha : a = ![0, 1] ∨ a = ![1, 0] := by simpa using hcols.mem_iff.mp (List.mem_cons_self (a := a) (l := [b]))
      have hb : b = ![0, 1] ∨ b = ![1, 0] := by simpa using hcols.mem_iff.mp (show b ∈ [a, b] by simp)
      unfold colLt at hab
      rw [hC] at hab
      have hab : Lex b a := by
        rcases hab with ⟨h, -⟩ | ⟨-, h⟩
        · simp at h
        · exact h
      rcases ha with rfl | rfl <;> rcases hb with rfl | rfl
      · exact absurd hab (by unfold Spec.Lex; decide)
      · exact absurd hab (by unfold Spec.Lex; decide)
      · rfl
      · exact absurd hab (by unfold Spec.Lex; decide)
  subst hh
  rw [hp] at hP
  rcases hP with rfl | ⟨-, -, rfl⟩
  · exact absurd (hR.symm.trans lex_la31) (by simp)
  · exact absurd (hR.symm.trans lex_la17) (by simp)

/-- C77: `export_f4` on `x+y` modulo 7 with `mon_order = 1` and `reduce_gb = 1` has no defined execution: the row of the final reduction
is allocated for the terms from the column of its first entry on, but the larger monomial is in an earlier column. -/
theorem C77_lex_undefined (cfs' : List ℤ) (out : Arrays) (ret : ℕ) :
    ¬ Call 2 1 0 7 true (Arrays.of [lexInput]) cfs' out ret := by
  rintro ⟨gens, G, h1, ⟨im, ng, F0, F, C, s, g1, -, g3, g4, g5, g6, g7, g8, g9, g10⟩, -⟩
  rw [readGens_of] at h1
  obtain rfl := Option.some.inj h1
  rw [show importGens bad 0 ([lexInput].map rawPoly) = .ok [rawPoly lexInput] 1 by decide +kernel] at g1
  injection g1 with e1 e2
  subst e1
  cases g3 with
  | cons ha hb =>
    cases hb
    obtain rfl := lex_import_eq ha
    obtain rfl := List.perm_singleton.mp g4
    have hord : C.ord = .lex := g5
    have hst := start_one C (by simpa using g7.upd []) lexPoly
    have hnil : (start C [lexPoly]).pst.ps = [] := by
      rw [hst]
      unfold start
      simp only [hord]
      decide +kernel
    have hs : s = start C [lexPoly] := by
      have key : ∀ s, Reach C [lexPoly] s → s = start C [lexPoly] := by
        intro s hs
        induction hs with
        | start => rfl
        | step _ hr ih =>
          subst ih
          cases hr with
          | mk _ _ _ _ _ _ _ hnd => exact absurd (Or.inl hnil) hnd
      exact key s g8
    subst hs
    rw [if_pos rfl] at g10
    obtain ⟨L, hL, hf⟩ := g10
    have hL' : finalLmps (start C [lexPoly]) = some [0] := by
      rw [hst]
      unfold start
      simp only [hord]
      decide +kernel
    rw [hL'] at hL
    obtain rfl := Option.some.inj hL
    exact lex_no_final hord g6 hf

theorem lex_import : ImportPolyMo 1 2 0 7 (rawPoly lexInput) lexPoly := by
  have hl : (rawPoly lexInput).length = 2 := rfl
  have hl' : ((rawPoly lexInput).map (importTerm 2 0 7)).length = 2 := rfl
  have hσ : SortPermMo 1 2 0 ((rawPoly lexInput).map (importTerm 2 0 7)) (fun i => 1 - i) := by
    refine ⟨?_, ?_, ?_⟩
    · rw [hl']; intro m _; omega
    · rw [hl']; intro a _ b _ h; omega
    · rw [hl']
      intro i j hij hj
      have hi : i = 0 := by omega
      have hj' : j = 1 := by omega
      subst hi
      subst hj'
      decide +kernel
  obtain ⟨cf, hcf, hs⟩ := sortTerms_spec 2 (fun i => ((rawPoly lexInput).map (importTerm 2 0 7)).getD i (0, fun _ => 0)) _ hσ.lt hσ.inj
  have c0 := hs 0 (by norm_num)
  have c1 := hs 1 (by norm_num)
  refine ⟨_, cf, [1, 1], [1, 1], hσ, by rw [hl]; exact hcf, ?_, by decide +kernel, ?_⟩
  · have : (List.range 2).map (fun i => (cf i).1) = [1, 1] := by
      simp only [List.range_succ, List.range_zero, List.nil_append, List.cons_append, List.map_cons, List.map_nil, c0, c1]
      decide +kernel
    rw [hl, this]
    decide +kernel
  · rw [hl]
    simp only [List.range_succ, List.range_zero, List.nil_append, List.cons_append, List.map_cons, List.map_nil, c0, c1]
    decide +kernel

theorem lex_import_x : ImportPolyMo 1 2 0 7 (rawPoly [((1 : ℤ), ![1, 0])]) [(![1, 0], 1)] := by
  have hl : (rawPoly [((1 : ℤ), ![1, 0])]).length = 1 := rfl
  have hl' : ((rawPoly [((1 : ℤ), ![1, 0])]).map (importTerm 2 0 7)).length = 1 := rfl
  have hσ : SortPermMo 1 2 0 ((rawPoly [((1 : ℤ), ![1, 0])]).map (importTerm 2 0 7)) id := by
    refine ⟨fun m h => h, fun a _ b _ h => h, ?_⟩
    rw [hl']
    intro i j hij hj
    omega
  obtain ⟨cf, hcf, hs⟩ := sortTerms_spec 1 (fun i => ((rawPoly [((1 : ℤ), ![1, 0])]).map (importTerm 2 0 7)).getD i (0, fun _ => 0)) _ hσ.lt hσ.inj
  have c0 := hs 0 (by norm_num)
  refine ⟨_, cf, [1], [1], hσ, by rw [hl]; exact hcf, ?_, by decide +kernel, ?_⟩
  · have : (List.range 1).map (fun i => (cf i).1) = [1] := by
      simp only [List.range_succ, List.range_zero, List.nil_append, List.map_cons, List.map_nil, c0]
      decide +kernel
    rw [hl, this]
    decide +kernel
  · rw [hl]
    simp only [List.range_succ, List.range_zero, List.nil_append, List.map_cons, List.map_nil, c0]
    decide +kernel

/-- C77: with `mon_order = 1` and `reduce_gb = 0` the result for `x+y`, `x` modulo 7 can be the input: `y` and `x` are taken for the leading
monomials.  It is not a Gröbner basis: the ideal contains `y`. -/
theorem C77_lex_wrong :
    Call 2 1 0 7 false (Arrays.of [lexInput, [(1, ![1, 0])]]) [1, 1, 1] ⟨[2, 1], [0, 1, 1, 0, 1, 0], [1, 1, 1]⟩ 3 ∧
    (⟨[2, 1], [0, 1, 1, 0, 1, 0], [1, 1, 1]⟩ : Arrays) = Arrays.of (n := 2) [[(1, ![0, 1]), (1, ![1, 0])], [(1, ![1, 0])]] ∧
    have : Fact (Nat.Prime 7) := ⟨by norm_num⟩
    ¬ IsGroebner OKind.lex.mo (arrayIdeal 7 [lexInput, [(1, ![1, 0])]])
      { q | ∃ g ∈ [[(1, ![0, 1]), (1, ![1, 0])], [(1, ![1, 0])]], q = apoly 7 g } := by
  refine ⟨?_, by decide +kernel, ?_⟩
  · have hC := stdCfg_ok (n := 2) .lex (p := 7) (by norm_num) (by norm_num) Nat.one_pos
    refine ⟨_, [lexPoly, [(![1, 0], 1)]], readGens_of _, ⟨[rawPoly lexInput, rawPoly [(1, ![1, 0])]], 2, [lexPoly, [(![1, 0], 1)]],
      [lexPoly, [(![1, 0], 1)]], stdCfg .lex 7 1, start (stdCfg .lex 7 1) [lexPoly, [(![1, 0], 1)]], by decide +kernel, by decide,
      .cons lex_import (.cons lex_import_x .nil), .refl _, rfl, rfl, ⟨hC.mnsel, hC.upd, hC.sel, hC.sorted⟩, .start, ?_, ?_⟩, ?_, ?_, ?_⟩
    · left
      show (Pairs.updateBasis 0 false id (elsOf 0 [lexPoly, [(![1, 0], 1)]]) 2 init0).ps = []
      decide +kernel
    · rw [if_neg (by decide)]
      refine ⟨[0, 1], ?_, rfl⟩
      show finalLmps ⟨[lexPoly, [(![1, 0], 1)]], Pairs.updateBasis 0 false id (elsOf 0 [lexPoly, [(![1, 0], 1)]]) 2 init0, false⟩ = _
      decide +kernel
    · decide +kernel
    · decide +kernel
    · decide +kernel
  · intro hF hG
    have hok : ∀ f ∈ ([[(![1, 0], 1), (![0, 1], 1)], [(![1, 0], 1)], [(![0, 1], 1)]] : List (Poly 2)), PolyOk .lex 7 f := by
      intro f hf
      simp only [List.mem_cons, List.not_mem_nil, or_false] at hf
      have hlt : OKind.lex.lt (![0, 1] : Fin 2 → ℕ) ![1, 0] := by
        show Spec.Lex _ _
        unfold Spec.Lex
        decide
      rcases hf with rfl | rfl | rfl
      · exact ⟨⟨_, rfl⟩, by simpa using hlt, by simp⟩
      · exact ⟨⟨_, rfl⟩, by simp, by simp⟩
      · exact ⟨⟨_, rfl⟩, by simp, by simp⟩
    have d1 := (hok [(![1, 0], 1), (![0, 1], 1)] (by simp)).degree
    have d2 := (hok [(![1, 0], 1)] (by simp)).degree
    have d3 := (hok [(![0, 1], 1)] (by simp)).degree
    have e1 : apoly 7 [(1, ![0, 1]), (1, (![1, 0] : Fin 2 → ℕ))] = toMv 7 [(![1, 0], 1), (![0, 1], 1)] := by
      simp [apoly, toMv, fs, add_comm]
    have e2 : apoly 7 [(1, (![1, 0] : Fin 2 → ℕ))] = toMv 7 [(![1, 0], 1)] := by
      simp [apoly, toMv, fs]
    have e3 : toMv 7 [((![0, 1] : Fin 2 → ℕ), 1)] = apoly 7 lexInput - apoly 7 [(1, (![1, 0] : Fin 2 → ℕ))] := by
      simp [apoly, toMv, fs, lexInput]
    obtain ⟨g, ⟨q, hq, rfl⟩, -, hle⟩ := hG.2 (toMv 7 [(![0, 1], 1)]) (by
      rw [e3]
      exact Ideal.sub_mem _ (Ideal.subset_span ⟨_, by simp, rfl⟩) (Ideal.subset_span ⟨_, by simp, rfl⟩)) (by
      intro h0
      have := (hok [(![0, 1], 1)] (by simp)).monic
      rw [h0] at this
      simp at this)
    rw [d3] at hle
    simp only [List.mem_cons, List.not_mem_nil, or_false] at hq
    rcases hq with rfl | rfl
    · rw [e1, d1, fs_le] at hle
      revert hle
      decide
    · rw [e2, d2, fs_le] at hle
      revert hle
      decide

/-! ### Examples -/

/-- `x^2+3*y` and `y^2-5`. -/
def eeArrays : List (List (ℤ × (Fin 2 → ℕ))) := [[(1, ![2, 0]), (3, ![0, 1])], [(1, ![0, 2]), (-5, ![0, 0])]]

theorem eeArrays_ok : ArraysOk 101 eeArrays where
  some := by decide
  terms := by decide
  range := by decide
  coeff := by decide
  distinct := by decide
  deg := by decide

theorem eeArrays_ideal : arrayIdeal 101 eeArrays = EndToEnd.inputIdeal 2 101 EndToEnd.eeTerms := by
  unfold arrayIdeal EndToEnd.inputIdeal
  rw [EndToEnd.eeBasis_poly]
  have h : eeArrays.map (apoly 101) = EndToEnd.eeBasis.map (toMv 101) := by
    have : (-5 : ZMod 101) = 96 := by decide
    simp [eeArrays, EndToEnd.eeBasis, apoly, toMv, fs, this]
  congr 1
  ext q
  have h1 : (∃ ts ∈ eeArrays, q = apoly 101 ts) ↔ q ∈ eeArrays.map (apoly 101) := by
    rw [List.mem_map]; exact exists_congr fun _ => and_congr_right' eq_comm
  have h2 : (∃ ts ∈ EndToEnd.eeBasis, q = toMv 101 ts) ↔ q ∈ EndToEnd.eeBasis.map (toMv 101) := by
    rw [List.mem_map]; exact exists_congr fun _ => and_congr_right' eq_comm
  exact h1.trans (h ▸ h2.symm)

example : Arrays.of eeArrays = ⟨[2, 2], [2, 0, 0, 1, 0, 2, 0, 0], [1, 3, 1, -5]⟩ := by decide

/-- All hypotheses are met; the arrays returned are those of the reduced basis, and the caller's `-5` has become `96`. -/
example : ∃ cfs' out ret, Call 2 0 0 101 true (Arrays.of eeArrays) cfs' out ret ∧ cfs' = [1, 3, 1, 96] ∧
    ∃ gs : List (List (ℤ × (Fin 2 → ℕ))), out = Arrays.of gs ∧ ret = out.cfs.length ∧ ∀ g ∈ gs, ElementOk .drl 101 g := by
  obtain ⟨c, o, r, h⟩ := C77_exists_partial (n := 2) (mo := 0) (nev := 0) true (by decide) (by norm_num : Nat.Prime 101) (by norm_num)
    (by norm_num) eeArrays_ok
  obtain ⟨gs, h1, h2, h3, -⟩ := C77_reduced_partial (by decide) (by norm_num) (by norm_num) eeArrays_ok (O := .drl) rfl
    (by rw [eeArrays_ideal]; exact EndToEnd.eeBasis_degree) h
  exact ⟨c, o, r, h, by rw [C77_input_modified (by norm_num) eeArrays_ok h]; decide, gs, h1, h2, h3⟩

theorem import_small {mo : ℤ} {nv nev p : ℕ} (hnev : nev < nv) {f : List (ℤ × List ℤ)} {g : Poly nv} (h : ImportPolyMo mo nv nev p f g) :
    ∀ t ∈ g, ∀ i, t.1 i < 65536 := by
  obtain ⟨σ, cf, cs, cs', hσ, hcf, -, -, rfl⟩ := h
  intro t ht i
  have ht := (List.of_mem_zip ht).1
  obtain ⟨j, hj, hj'⟩ := List.mem_map.mp ht
  rw [List.mem_range] at hj
  obtain ⟨h1, h2, -⟩ := hσ
  rw [List.length_map] at h1 h2
  obtain ⟨cf', e, hs⟩ := sortTerms_spec f.length _ σ h1 h2
  rw [hcf] at e
  obtain rfl := Option.some.inj e
  rw [hs j hj, List.getD_eq_getElem _ _ (by rw [List.length_map]; exact h1 j hj)] at hj'
  rw [← hj']
  simp only [List.getElem_map, importTerm]
  generalize (fun i : ℕ => ((f[σ j]'(h1 j hj)).2.getD i 0).toNat) = u
  obtain ⟨a1, a2, -⟩ := setEv_spec nv nev (by omega) u fun _ => 0
  unfold monOf
  split_ifs with hi
  · rw [a1 _ hi]
    exact Nat.mod_lt _ (by norm_num)
  · rw [a2 _ (by omega) i.isLt]
    exact Nat.mod_lt _ (by norm_num)

/-- For a single generator the exponents always fit. -/
theorem one_exponents {mo : ℤ} {nev p : ℕ} {f : List (ℤ × (Fin n → ℕ))} (hf : ArraysOk p [f]) {G : List (Poly n)}
    (h : Basis mo nev p false ([f].map rawPoly) G) : ∀ g ∈ G, ∀ t ∈ g, ∀ i, t.1 i < 65536 := by
  obtain ⟨im, ng, F0, F, C, s, h1, h2, h3, h4, h5, h6, h7, h8, h9, h10⟩ := h
  rw [import_all hf] at h1
  injection h1 with e1 e2
  subst e1
  cases h3 with
  | cons ha hb =>
    cases hb
    rename_i g
    obtain rfl := List.perm_singleton.mp h4
    have hnil : (start C [g]).pst.ps = [] := by
      have h0 : C.srtUpd [] = [] := by simpa using h7.upd []
      unfold start Pairs.updateBasis
      simp [Pairs.insertPairs, init0, h0, Pairs.mLoop, Pairs.eqLoop]
    have hs : ∀ s, Reach C [g] s → s = start C [g] := by
      intro s hs
      induction hs with
      | start => rfl
      | step _ hr ih =>
        subst ih
        cases hr with
        | mk _ _ _ _ _ _ _ hnd => exact absurd (Or.inl hnil) hnd
    obtain rfl := hs s h8
    rw [if_neg (by decide)] at h10
    obtain ⟨L, -, rfl⟩ := h10
    intro g' hg' t ht
    obtain ⟨k, -, rfl⟩ := List.mem_map.mp hg'
    have hels : (start C [g]).els = [g] := rfl
    rw [hels] at ht
    cases k with
    | zero => exact import_small h2 ha t ht
    | succ k => simp at ht

/-- `3*x^2-5*y`. -/
def oneArray : List (List (ℤ × (Fin 2 → ℕ))) := [[(3, ![2, 0]), (-5, ![0, 1])]]

theorem oneArray_ok : ArraysOk 101 oneArray where
  some := by decide
  terms := by decide
  range := by decide
  coeff := by decide
  distinct := by decide
  deg := by decide

/-- The hypotheses of `C77_minimal_partial` are met. -/
example : ∃ cfs' out ret, Call 2 0 1 101 false (Arrays.of oneArray) cfs' out ret ∧
    ∃ gs : List (List (ℤ × (Fin 2 → ℕ))), out = Arrays.of gs ∧ ret = out.cfs.length ∧ ∀ g ∈ gs, ElementOk (.be 1) 101 g := by
  obtain ⟨c, o, r, h⟩ := C77_exists_partial (n := 2) (mo := 0) (nev := 1) false (by decide) (by norm_num : Nat.Prime 101) (by norm_num)
    (by norm_num) oneArray_ok
  obtain ⟨gs, h1, h2, h3, -⟩ := C77_minimal_partial (by decide) (by norm_num) (by norm_num) oneArray_ok (O := .be 1) rfl
    (fun G hG => one_exponents oneArray_ok hG) h
  exact ⟨c, o, r, h, gs, h1, h2, h3⟩

/-- The hypotheses of `C77_same_ideal_partial` and `C77_second_call_partial` are met: multiples of the generators, another order. -/
example : arrayIdeal 101 ([[(-1, ![2, 0])], [(2, ![0, 1])]] : List (List (ℤ × (Fin 2 → ℕ)))) = arrayIdeal 101 [[(1, ![0, 1])], [(1, ![2, 0])]] := by
  have e1 : apoly 101 [(-1, (![2, 0] : Fin 2 → ℕ))] = MvPolynomial.C (-1) * apoly 101 [(1, ![2, 0])] := by
    simp [apoly]
  have e2 : apoly 101 [(2, (![0, 1] : Fin 2 → ℕ))] = MvPolynomial.C 2 * apoly 101 [(1, ![0, 1])] := by
    simp [apoly, MvPolynomial.C_mul_monomial]
  have e3 : apoly 101 [(1, (![0, 1] : Fin 2 → ℕ))] = MvPolynomial.C 51 * apoly 101 [(2, ![0, 1])] := by
    have : (51 * 2 : ZMod 101) = 1 := by decide
    simp [apoly, MvPolynomial.C_mul_monomial, this]
  have e4 : apoly 101 [(1, (![2, 0] : Fin 2 → ℕ))] = MvPolynomial.C (-1) * apoly 101 [(-1, ![2, 0])] := by
    simp [apoly]
  unfold arrayIdeal
  apply le_antisymm <;> rw [Ideal.span_le] <;> rintro q ⟨f, hf, rfl⟩ <;>
    simp only [List.mem_cons, List.not_mem_nil, or_false] at hf <;> rcases hf with rfl | rfl
  · rw [e1]
    exact Ideal.mul_mem_left _ _ (Ideal.subset_span ⟨_, by simp, rfl⟩)
  · rw [e2]
    exact Ideal.mul_mem_left _ _ (Ideal.subset_span ⟨_, by simp, rfl⟩)
  · rw [e3]
    exact Ideal.mul_mem_left _ _ (Ideal.subset_span ⟨_, by simp, rfl⟩)
  · rw [e4]
    exact Ideal.mul_mem_left _ _ (Ideal.subset_span ⟨_, by simp, rfl⟩)

end ExportF4
end Verif.Props
