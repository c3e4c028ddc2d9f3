import Verif.EndToEnd
import Verif.Props.Parse
import Verif.Props.F4

/-!
C73: from the input file to the printed Gröbner basis.
-/
namespace Verif.Props
namespace EndToEnd

open Verif.Orders Verif.Import Verif.Normalize Verif.Parse Verif.F4 Verif.Spec Verif.EndToEnd Verif.Groebner
open Verif.Spec.Text (File FileOk FirstNum InnerNum Expanded)

/-- What is assumed of an input file: C58, and the polynomials are expanded. -/
structure InputOk (f : File) (names : List (List Char)) (p : ℕ) (tss : List (List Text.Mon)) : Prop where
  file : FileOk f names p tss
  prime : p.Prime
  first : ∀ ts ∈ tss, ∀ t ∈ ts.head?, FirstNum t
  inner : ∀ ts ∈ tss, ∀ t ∈ ts.tail, InnerNum t
  expanded : ∀ ts ∈ tss, Expanded p names.length ts

/-- The ideal generated by the polynomials in the file. -/
noncomputable def inputIdeal (n p : ℕ) (tss : List (List Text.Mon)) : Ideal (MvPolynomial (Fin n) (ZMod p)) :=
  Ideal.span { q | ∃ ts ∈ tss, q = Text.poly p n ts }

theorem read_file {f : File} {names : List (List Char)} {p : ℕ} {tss : List (List Text.Mon)} (h : InputOk f names p tss) :
    readFile f.text = some ⟨names, p, .ff (tss.map (ffPoly names.length p))⟩ := by
  have hp := h.prime.pos
  obtain ⟨qs, h1, h2⟩ := readFile_prefix h.file
  rw [h2, if_neg (by omega), mapM_forall₂ (G := ffPoly names.length p)]
  · rfl
  · rw [List.forall₂_iff_get] at h1 ⊢
    refine ⟨h1.1, fun i hi hi2 => ?_⟩
    obtain ⟨tl, htl, hc⟩ := h1.2 i hi hi2
    have hmem := List.get_mem tss ⟨i, hi2⟩
    rw [hc]
    generalize tss.get ⟨i, hi2⟩ = ts at hmem
    have hne := h.file.terms ts hmem
    obtain ⟨t, ts, rfl⟩ := List.exists_cons_of_ne_nil hne
    exact parseFf_line h.file.name h.file.nodup hp h.file.small (h.file.ok _ hmem) (h.file.fits _ hmem) (h.first _ hmem t rfl)
      (h.inner _ hmem) htl

theorem import_all {n p : ℕ} {tss : List (List Text.Mon)} (hne : tss ≠ []) (hE : ∀ ts ∈ tss, Expanded p n ts) :
    importGens (fun f => invalid (f.map Prod.fst)) 0 (tss.map (ffPoly n p)) = .ok (tss.map (ffPoly n p)) (tss.map (ffPoly n p)).length := by
  have := C15_no_generator_lost_partial (fun f : List (ℤ × List ℤ) => invalid (f.map Prod.fst)) (tss.map (ffPoly n p)) []
    (by simpa using hne) (by
      intro g hg
      obtain ⟨ts, hts, rfl⟩ := List.mem_map.mp hg
      have hc := (hE ts hts).coeff
      have key : ∀ t ∈ ts, t.numer % (p : ℤ) ≠ 0 := fun t ht h => hc t ht (Int.dvd_of_emod_eq_zero h)
      cases ts with
      | nil => rfl
      | cons t ts =>
        simp only [invalid, ffPoly, List.any_eq_false, List.mem_map, List.map_cons, List.mem_cons]
        rintro x (rfl | ⟨y, ⟨u, hu, rfl⟩, rfl⟩)
        · have h1 := key t List.mem_cons_self
          simp only [addUntil, beq_iff_eq]
          split_ifs
          · exact h1
          · intro h0
            rw [h0] at h1
            simp at h1
        · simpa using key u (List.mem_cons_of_mem _ hu)) (by simp)
  rwa [List.append_nil] at this

/-- The imported generators. -/
theorem import_ideal {n nev p : ℕ} (hnev : nev < n) (hp : p.Prime) (hp2 : p < 2 ^ 31) {tss : List (List Text.Mon)}
    (hne : ∀ ts ∈ tss, ts ≠ []) (h0 : ∀ ts ∈ tss, ∀ t ∈ ts.head?, FirstNum t) (hE : ∀ ts ∈ tss, Expanded p n ts) {F : List (Poly n)}
    (h : List.Forall₂ (ImportPoly n nev p) (tss.map (ffPoly n p)) F) :
    (∀ f ∈ F, PolyOk (ordKind nev) p f) ∧ Ideal.span { g | ∃ f ∈ F, g = toMv p f } = inputIdeal n p tss := by
  have hF : Fact p.Prime := ⟨hp⟩
  rw [List.forall₂_map_left_iff] at h
  have key : List.Forall₂ (fun ts f => PolyOk (ordKind nev) p f ∧
      ∃ u : ZMod p, u ≠ 0 ∧ toMv p f = MvPolynomial.C u * Text.poly p n ts) tss F := by
    rw [List.forall₂_iff_get] at h ⊢
    refine ⟨h.1, fun i hi hi' => ?_⟩
    have hm := List.get_mem tss ⟨i, hi⟩
    exact importPoly_spec hnev hp hp2 (hne _ hm) (h0 _ hm) (hE _ hm) (h.2 i hi hi')
  clear h hne h0 hE
  constructor
  · intro f hf
    obtain ⟨i, hi, rfl⟩ := List.mem_iff_getElem.mp hf
    exact ((List.forall₂_iff_get.mp key).2 i (by rw [key.length_eq]; exact hi) hi).1
  · apply le_antisymm
    · rw [Ideal.span_le]
      rintro g ⟨f, hf, rfl⟩
      obtain ⟨i, hi, rfl⟩ := List.mem_iff_getElem.mp hf
      have hi' : i < tss.length := by rw [key.length_eq]; exact hi
      obtain ⟨-, u, -, hu⟩ := (List.forall₂_iff_get.mp key).2 i hi' hi
      simp only [List.get_eq_getElem] at hu
      rw [SetLike.mem_coe, hu]
      exact Ideal.mul_mem_left _ _ (Ideal.subset_span ⟨_, List.getElem_mem hi', rfl⟩)
    · unfold inputIdeal
      rw [Ideal.span_le]
      rintro q ⟨ts, hts, rfl⟩
      obtain ⟨i, hi, rfl⟩ := List.mem_iff_getElem.mp hts
      have hi' : i < F.length := by rw [← key.length_eq]; exact hi
      obtain ⟨-, u, hu0, hu⟩ := (List.forall₂_iff_get.mp key).2 i hi hi'
      simp only [List.get_eq_getElem] at hu
      have : Text.poly p n tss[i] = MvPolynomial.C u⁻¹ * toMv p F[i] := by
        rw [hu, ← mul_assoc, ← MvPolynomial.C_mul, inv_mul_cancel₀ hu0, MvPolynomial.C_1, one_mul]
      rw [SetLike.mem_coe, this]
      exact Ideal.mul_mem_left _ _ (Ideal.subset_span ⟨_, List.getElem_mem hi', rfl⟩)

/-! ### Printing -/

theorem exponents_stored {n nev : ℕ} (hnev : nev < n) (u : Fin n → ℕ) (hu : ∀ i, u i < 65536) :
    exponentsOf (ebl nev) ((List.range (evl n nev)).map (setEv n nev (ext u) fun _ => 0)) = (List.range n).map (ext u) := by
  rw [← exportEv_setEv n nev (by omega) (ext u) (fun _ => 0)]
  · generalize setEv n nev (ext u) (fun _ => 0) = ev
    have key : ∀ a b : ℕ, (List.range b).drop a = List.range' a (b - a) := by
      intro a b
      rw [List.range_eq_range', List.drop_range']
      simp
    unfold exponentsOf exportEv
    split_ifs with h
    · rw [h, ← List.map_drop, key]
      simp
    · have hle : ebl nev ≤ evl n nev := by unfold evl ebl; split_ifs <;> omega
      rw [← List.map_take, ← List.map_drop, ← List.map_drop, List.take_range, key, key, Nat.min_eq_left hle]
  · intro i hi
    rw [show i = (⟨i, hi⟩ : Fin n).val from rfl, ext_val]
    exact hu _

/-- The terms that are printed for an element of the basis. -/
def printed {n : ℕ} (names : List (List Char)) (nev : ℕ) (g : Poly n) : List Text.Mon := printMons names (ebl nev) (stored nev g)

theorem printed_eq {names : List (List Char)} {nev : ℕ} (hnev : nev < names.length) {g : Poly names.length}
    (hg : ∀ t ∈ g, ∀ i, t.1 i < 65536) :
    printed names nev g = g.map fun t => printMon names t.2 ((List.range names.length).map (ext t.1)) := by
  unfold printed printMons stored
  rw [List.map_map]
  apply List.map_congr_left
  intro t ht
  simp only [Function.comp_apply]
  rw [exponents_stored hnev _ (hg t ht)]

theorem printMon_vec {names : List (List Char)} (c : ℕ) (u : Fin names.length → ℕ) :
    (printMon names c ((List.range names.length).map (ext u))).vec names.length = u := by
  funext i
  unfold Text.Mon.vec
  rw [printMon_expo i.isLt]
  simp [List.getD_eq_getElem?_getD, ext_val]

theorem printed_poly {names : List (List Char)} {nev p : ℕ} (hnev : nev < names.length) {g : Poly names.length}
    (hg : ∀ t ∈ g, ∀ i, t.1 i < 65536) : Text.poly p names.length (printed names nev g) = toMv p g := by
  rw [printed_eq hnev hg]
  unfold Text.poly toMv
  rw [List.map_map]
  congr 1
  apply List.map_congr_left
  intro t _
  simp only [Function.comp_apply, Text.Mon.poly, printMon_vec, printMon_numer, fs, Int.cast_natCast]

/-- A line that begins with `#`. -/
def comment (l : List Char) : List Char := '#' :: l ++ ['\n']

/-- The comments: each on one line; among them the characteristic, the names of the variables, the order and the number of elements. -/
structure Comments (names : List (List Char)) (p nev len : ℕ) (cs : List (List Char)) : Prop where
  lines : ∀ l ∈ cs, '\n' ∉ l
  char : ("field characteristic: ".toList ++ Nat.toDigits 10 p) ∈ cs
  vars : ("variable order:       ".toList ++ List.intercalate ", ".toList names) ∈ cs
  drl : nev = 0 → "monomial order:       graded reverse lexicographical".toList ∈ cs
  elim : 1 < nev → ("monomial order:       eliminating first ".toList ++ Nat.toDigits 10 nev ++
    " variables, blocks: graded reverse lexicographical".toList) ∈ cs
  elim1 : nev = 1 → "monomial order:       eliminating first variable, blocks: graded reverse lexicographical".toList ∈ cs
  len : len ≠ 1 → ("length of basis:      ".toList ++ Nat.toDigits 10 len ++
    " elements sorted by increasing leading monomials".toList) ∈ cs

theorem digits_newline (k : ℕ) : '\n' ∉ Nat.toDigits 10 k := by
  intro h
  have := Nat.isDigit_of_mem_toDigits (by norm_num) (by norm_num) h
  revert this; decide

theorem header_comments {names : List (List Char)} (hnm : ∀ nm ∈ names, Text.Name nm) (p nev len : ℕ) :
    ∃ cs, header names p nev len = (cs.map comment).flatten ∧ Comments names p nev len cs := by
  have hnames : '\n' ∉ List.intercalate [',', ' '] names := by
    intro h
    have key : ∀ l : List (List Char), (∀ nm ∈ l, '\n' ∉ nm) → '\n' ∉ List.intercalate [',', ' '] l := by
      intro l hl
      induction l with
      | nil => simp [List.intercalate]
      | cons a l ih =>
        cases l with
        | nil => simpa [List.intercalate] using hl
        | cons b l =>
          have h2 := ih fun nm hm => hl nm (List.mem_cons_of_mem _ hm)
          simp only [List.intercalate, List.intersperse_cons_cons, List.flatten_cons, List.mem_append, not_or] at h2 ⊢
          exact ⟨hl a List.mem_cons_self, by decide, h2⟩
    refine key names (fun nm hm hc => ?_) h
    have := ((hnm nm hm).2.2 _ hc).2
    revert this; decide
  have h1 : ∀ (s s' : String) (D : List Char), s.toList = '#' :: s'.toList → s.toList ++ D ++ ['\n'] = comment (s'.toList ++ D) := by
    intro s s' D e
    rw [e]; rfl
  have h2 : ∀ (s s' t t' : String) (D : List Char), s.toList = '#' :: s'.toList → t.toList = t'.toList ++ ['\n'] →
      s.toList ++ D ++ t.toList = comment (s'.toList ++ D ++ t'.toList) := by
    intro s s' t t' D e e'
    rw [e, e', ← List.append_assoc]; rfl
  refine ⟨["Reduced Groebner basis data".toList, "---".toList, "field characteristic: ".toList ++ Nat.toDigits 10 p,
    "variable order:       ".toList ++ List.intercalate [',', ' '] names,
    (if nev = 0 then "monomial order:       graded reverse lexicographical".toList
     else if nev = 1 then "monomial order:       eliminating first variable, blocks: graded reverse lexicographical".toList
     else "monomial order:       eliminating first ".toList ++ Nat.toDigits 10 nev ++
      " variables, blocks: graded reverse lexicographical".toList),
    (if len = 1 then "length of basis:      1 element".toList
     else "length of basis:      ".toList ++ Nat.toDigits 10 len ++ " elements sorted by increasing leading monomials".toList),
    "---".toList], ?_, ?_⟩
  · unfold header
    rw [h1 _ "field characteristic: " _ (by decide +kernel), h1 _ "variable order:       " _ (by decide +kernel),
      h2 "#monomial order:       eliminating first " "monomial order:       eliminating first " _ " variables, blocks: graded reverse lexicographical" _
        (by decide +kernel) (by decide +kernel),
      h2 "#length of basis:      " "length of basis:      " _ " elements sorted by increasing leading monomials" _ (by decide +kernel) (by decide +kernel)]
    have e1 : "#Reduced Groebner basis data\n".toList = comment "Reduced Groebner basis data".toList := by decide +kernel
    have e2 : "#---\n".toList = comment "---".toList := by decide +kernel
    have e3 : "#monomial order:       graded reverse lexicographical\n".toList =
      comment "monomial order:       graded reverse lexicographical".toList := by decide +kernel
    have e4 : "#monomial order:       eliminating first variable, blocks: graded reverse lexicographical\n".toList =
      comment "monomial order:       eliminating first variable, blocks: graded reverse lexicographical".toList := by decide +kernel
    have e5 : "#length of basis:      1 element\n".toList = comment "length of basis:      1 element".toList := by decide +kernel
    rw [e1, e2, e3, e4, e5]
    simp only [List.map_cons, List.map_nil, List.flatten_cons, List.flatten_nil, List.append_nil, List.append_assoc, apply_ite comment]
  · refine ⟨?_, ?_, ?_, ?_, ?_, ?_, ?_⟩
    · intro l hl
      simp only [List.mem_cons, List.not_mem_nil, or_false] at hl
      rcases hl with rfl | rfl | rfl | rfl | rfl | rfl | rfl
      · decide +kernel
      · decide +kernel
      · rw [List.mem_append, not_or]
        exact ⟨by decide +kernel, digits_newline _⟩
      · rw [List.mem_append, not_or]
        exact ⟨by decide +kernel, hnames⟩
      · split_ifs
        · decide +kernel
        · decide +kernel
        · rw [List.mem_append, List.mem_append, not_or, not_or]
          exact ⟨⟨by decide +kernel, digits_newline _⟩, by decide +kernel⟩
      · split_ifs
        · decide +kernel
        · rw [List.mem_append, List.mem_append, not_or, not_or]
          exact ⟨⟨by decide +kernel, digits_newline _⟩, by decide +kernel⟩
      · decide +kernel
    · exact .tail _ (.tail _ (.head _))
    · exact .tail _ (.tail _ (.tail _ (.head _)))
    · intro h; rw [if_pos h]; exact .tail _ (.tail _ (.tail _ (.tail _ (.head _))))
    · intro h; rw [if_neg (by omega), if_neg (by omega)]; exact .tail _ (.tail _ (.tail _ (.tail _ (.head _))))
    · intro h; rw [if_neg (by omega), if_pos h]; exact .tail _ (.tail _ (.tail _ (.tail _ (.head _))))
    · intro h; rw [if_neg h]; exact .tail _ (.tail _ (.tail _ (.tail _ (.tail _ (.head _)))))

/-! ### Runs -/

theorem Run_cfg {n : ℕ} {C : Cfg n} (h : Sorts C) (hp : C.p.Prime) (hp2 : C.p < 2 ^ 31) : CfgOk C :=
  ⟨hp, hp2, h.mnsel, h.upd, h.sel, h.sorted⟩

/-- The parts of an execution. -/
theorem run_parts {f : File} {names : List (List Char)} {p nev : ℕ} {tss : List (List Text.Mon)} (h : InputOk f names p tss)
    {out : List Char} (hr : Run nev f.text out) :
    nev < names.length ∧ ∃ (F : List (Poly names.length)) (C : Cfg names.length) (s : F4.St names.length) (G : List (Poly names.length)),
      (∀ f ∈ F, PolyOk (ordKind nev) p f) ∧ Ideal.span { g | ∃ f ∈ F, g = toMv p f } = inputIdeal names.length p tss ∧
      CfgOk C ∧ C.ord = ordKind nev ∧ C.p = p ∧ Reach C F s ∧ done s ∧ Final C s G ∧ out = printBasis names p nev G := by
  obtain ⟨names', p', ps, im, ng, F0, F, C, s, G, h1, h2, h3, h4, h5, h6, h7, h8, h9, h10, h11, h12⟩ := hr
  rw [read_file h] at h1
  have h1 := Option.some.inj h1
  injection h1 with e1 e2 e3
  have e2 : p = p' := by exact_mod_cast e2
  subst e1
  subst e2
  injection e3 with e3
  subst e3
  rw [import_all h.file.polys h.expanded] at h3
  injection h3 with e4 e5
  subst e4
  obtain ⟨k1, k2⟩ := import_ideal h2 h.prime h.file.small h.file.terms h.first h.expanded h4
  refine ⟨h2, F, C, s, G, fun f hf => k1 f (h5.mem_iff.mp hf), ?_, Run_cfg h8 (h7 ▸ h.prime) (h7 ▸ h.file.small), h6, h7, h9, h10, h11, h12⟩
  rw [← k2]
  congr 1
  ext g
  exact exists_congr fun f => and_congr_left' h5.mem_iff

/-- **C73**: what is printed for an input file is, after comments, the reduced Gröbner basis of the ideal generated by the polynomials
in the file, for the degree reverse lexicographical order or the block order that eliminates the first `nev` variables: the
coefficients are between one and `p - 1`, the terms are decreasing, the elements are sorted by increasing leading monomials.  The
degrees in the reduced basis are assumed to be below `2^16`. -/
theorem C73_groebner {f : File} {names : List (List Char)} {p nev : ℕ} {tss : List (List Text.Mon)} (h : InputOk f names p tss)
    {O : OKind} (hO : O = if nev = 0 then .drl else .be nev)
    (hdeg : have : Fact p.Prime := ⟨h.prime⟩
      ∀ B, IsReducedGroebner O.mo (inputIdeal names.length p tss) B → ∀ g ∈ B, g.totalDegree < 65536)
    {out : List Char} (hr : Run nev f.text out) :
    have : Fact p.Prime := ⟨h.prime⟩
    ∃ (cs : List (List Char)) (gs : List (List Text.Mon)),
      out = (cs.map comment).flatten ++ '[' :: List.intercalate ",\n".toList (gs.map (Text.line names)) ++ "]:\n".toList ∧
      Comments names p nev gs.length cs ∧
      (∀ g ∈ gs, g ≠ [] ∧ (∀ t ∈ g, t.Ok names ∧ t.denom = 1 ∧ 0 < t.numer ∧ t.numer < p) ∧
        g.Pairwise fun a b => O.lt (b.vec names.length) (a.vec names.length)) ∧
      gs.Pairwise (fun a b => ∀ s ∈ a.head?, ∀ t ∈ b.head?, O.lt (s.vec names.length) (t.vec names.length)) ∧
      IsReducedGroebner O.mo (inputIdeal names.length p tss) { q | ∃ g ∈ gs, q = Text.poly p names.length g } := by
  have hF : Fact p.Prime := ⟨h.prime⟩
  obtain ⟨hnev, F, C, s, G, h1, h2, h3, h4, h5, h6, h7, h8, rfl⟩ := run_parts h hr
  obtain ⟨O', p', m, u, v⟩ := C
  simp only at h4 h5
  have hO' : O' = O := by rw [h4, hO]; rfl
  subst hO'
  subst h5
  rw [← h4] at h1
  obtain ⟨k1, k2, k3⟩ := (C44_reduced h3 h1).2 s G h6 h7 h8
  simp only at k1 k2 k3
  rw [h2] at k1
  have hexp : ∀ g ∈ G, ∀ t ∈ g, ∀ i, t.1 i < 65536 := by
    intro g hg t ht i
    have hd := hdeg _ k1 _ ⟨g, hg, rfl⟩
    have hc := toMv_coeff p' g (k2 g hg).sorted t ht
    have hsupp : fs t.1 ∈ (toMv p' g).support := by
      rw [MvPolynomial.mem_support_iff, hc]
      intro h0
      rw [ZMod.natCast_eq_zero_iff] at h0
      have := (k2 g hg).coeff t ht
      exact absurd (Nat.le_of_dvd this.1 h0) (by omega)
    have := MvPolynomial.le_totalDegree hsupp
    have hi : t.1 i ≤ (fs t.1).sum fun _ e => e := by
      rw [Finsupp.sum_fintype _ _ (by simp)]
      exact Finset.single_le_sum (f := fun i => fs t.1 i) (fun _ _ => Nat.zero_le _) (Finset.mem_univ i)
    omega
  obtain ⟨cs, hcs, hC⟩ := header_comments h.file.name p' nev G.length
  have hlead : ∀ g ∈ G, ∃ r, printed names nev g = printMon names 1 ((List.range names.length).map (ext (lead g))) :: r := by
    intro g hg
    obtain ⟨r, hr⟩ := (k2 g hg).head
    rw [printed_eq hnev (hexp g hg), hr]
    exact ⟨_, rfl⟩
  refine ⟨cs, G.map (printed names nev), ?_, by rw [List.length_map]; exact hC, ?_, ?_, ?_⟩
  · unfold printBasis printPolys
    rw [hcs, ← List.append_assoc, List.map_map, List.map_map]
    have : G.map (printPoly names (ebl nev) ∘ stored nev) = G.map (Text.line names ∘ printed names nev) := by
      apply List.map_congr_left
      intro g hg
      obtain ⟨r, hr⟩ := hlead g hg
      refine printPoly_line ?_ ?_
      · intro h0
        unfold printed printMons at hr
        rw [h0] at hr
        cases hr
      · intro x hx
        obtain ⟨t, ht, rfl⟩ := List.mem_map.mp hx
        simp only
        rw [exponents_stored hnev _ (hexp g hg t ht)]
        simp
    rw [this]
    rfl
  · intro g' hg'
    obtain ⟨g, hg, rfl⟩ := List.mem_map.mp hg'
    refine ⟨?_, ?_, ?_⟩
    · obtain ⟨r, hr⟩ := hlead g hg
      rw [hr]; simp
    · rw [printed_eq hnev (hexp g hg)]
      intro t' ht'
      obtain ⟨t, ht, rfl⟩ := List.mem_map.mp ht'
      refine ⟨printMon_ok ?_, rfl, ?_, ?_⟩
      · intro x hx
        obtain ⟨i, hi, rfl⟩ := List.mem_map.mp hx
        have hi := List.mem_range.mp hi
        rw [show i = (⟨i, hi⟩ : Fin names.length).val from rfl, ext_val]
        have := hexp g hg t ht ⟨i, hi⟩
        omega
      · rw [printMon_numer]
        have := (k2 g hg).coeff t ht
        omega
      · rw [printMon_numer]
        have := (k2 g hg).coeff t ht
        omega
    · rw [printed_eq hnev (hexp g hg), List.pairwise_map]
      simp only [printMon_vec]
      have := (k2 g hg).sorted
      rw [List.pairwise_map] at this
      exact this
  · rw [List.pairwise_map]
    refine List.Pairwise.imp_of_mem ?_ k3
    intro a b ha hb hab
    obtain ⟨r, hr⟩ := hlead a ha
    obtain ⟨r', hr'⟩ := hlead b hb
    rw [hr, hr']
    simp only [List.head?_cons, Option.mem_def, Option.some.injEq]
    rintro _ rfl _ rfl
    rw [printMon_vec, printMon_vec]
    exact hab
  · have : { q | ∃ g ∈ G.map (printed names nev), q = Text.poly p' names.length g } = { q | ∃ g ∈ G, q = toMv p' g } := by
      ext q
      constructor
      · rintro ⟨g', hg', rfl⟩
        obtain ⟨g, hg, rfl⟩ := List.mem_map.mp hg'
        exact ⟨g, hg, printed_poly hnev (hexp g hg)⟩
      · rintro ⟨g, hg, rfl⟩
        exact ⟨_, List.mem_map_of_mem hg, (printed_poly hnev (hexp g hg)).symm⟩
    rw [this]
    exact k1

/-- **C73**: something is printed. -/
theorem C73_exists {f : File} {names : List (List Char)} {p nev : ℕ} {tss : List (List Text.Mon)} (h : InputOk f names p tss)
    (hnev : nev < names.length) : ∃ out, Run nev f.text out := by
  have hF0 : ∃ F0, List.Forall₂ (ImportPoly names.length nev p) (tss.map (ffPoly names.length p)) F0 := by
    have key : ∀ l : List (List Text.Mon), (∀ ts ∈ l, ts ∈ tss) →
        ∃ F0, List.Forall₂ (ImportPoly names.length nev p) (l.map (ffPoly names.length p)) F0 := by
      intro l hl
      induction l with
      | nil => exact ⟨[], .nil⟩
      | cons ts l ih =>
        obtain ⟨F0, hF0⟩ := ih fun x hx => hl x (List.mem_cons_of_mem _ hx)
        have hm := hl ts List.mem_cons_self
        obtain ⟨g, hg⟩ := importPoly_exists hnev h.prime h.file.small (h.file.terms ts hm) (h.first ts hm) (h.expanded ts hm)
        exact ⟨g :: F0, .cons hg hF0⟩
    exact key tss fun _ hx => hx
  obtain ⟨F0, hF0⟩ := hF0
  obtain ⟨k1, -⟩ := import_ideal hnev h.prime h.file.small h.file.terms h.first h.expanded hF0
  have hC := stdCfg_ok (n := names.length) (ordKind nev) h.prime h.file.small Nat.one_pos
  obtain ⟨s, G, h1, h2, h3⟩ := (C44_reduced hC k1).1 (by
    rintro rfl
    have := hF0.length_eq
    rw [List.length_map, List.length_nil] at this
    exact h.file.polys (List.length_eq_zero_iff.mp this))
  exact ⟨_, names, p, _, _, _, F0, F0, _, s, G, read_file h, hnev, import_all h.file.polys h.expanded, hF0, .refl _, rfl, rfl,
    ⟨hC.mnsel, hC.upd, hC.sel, hC.sorted⟩, h1, h2, h3, rfl⟩

/-- **C73**: files with the same variables whose polynomials generate the same ideal give the same output, whatever the sort
functions, the number of pairs selected and the threads do.  In particular the output for one file is unique. -/
theorem C73_same_ideal {f f' : File} {names : List (List Char)} {p nev : ℕ} {tss tss' : List (List Text.Mon)}
    (h : InputOk f names p tss) (h' : InputOk f' names p tss') (hI : inputIdeal names.length p tss = inputIdeal names.length p tss')
    {out out' : List Char} (hr : Run nev f.text out) (hr' : Run nev f'.text out') : out = out' := by
  obtain ⟨hnev, F, C, s, G, h1, h2, h3, h4, h5, h6, h7, h8, rfl⟩ := run_parts h hr
  obtain ⟨-, F', C', s', G', h1', h2', h3', h4', h5', h6', h7', h8', rfl⟩ := run_parts h' hr'
  obtain ⟨O, p', m, u, v⟩ := C
  simp only at h4 h5
  subst h4
  subst h5
  have := C51_deterministic h3 h3' h4'.symm h5'.symm h1 h1' (by rw [h2, h2', hI]) h6 h7 h8 h6' h7' h8'
  rw [this]

/-! ### Inputs that are not expanded -/

def twoNames : List (List Char) := [['x'], ['y']]

/-- C73: a coefficient that is a multiple of `p` but not written as zero is not recognised.  If it is the leading one, its inverse is
computed as zero and all coefficients of the generator become zero: `7*x+y` modulo 7. -/
theorem C73_zero_coefficient : readFile "x,y\n7\n7*x+y\n".toList = some ⟨twoNames, 7, .ff [[(7, [1, 0]), (1, [0, 1])]]⟩ ∧
    importGens (fun f => invalid (f.map Prod.fst)) 0 [[((7 : ℤ), [(1 : ℤ), 0]), (1, [0, 1])]] = .ok [[(7, [1, 0]), (1, [0, 1])]] 1 ∧
    ∀ g, ImportPoly 2 0 7 [(7, [1, 0]), (1, [0, 1])] g → g.map Prod.snd = [0, 0] := by
  refine ⟨by decide +kernel, by decide +kernel, ?_⟩
  rintro g ⟨σ, cf, cs, cs', hσ, hcf, hn1, hn2, rfl⟩
  obtain ⟨h1, h2, h3⟩ := hσ
  simp only [List.map_cons, List.map_nil, List.length_cons, List.length_nil] at h1 h2 h3 hcf hn1 ⊢
  obtain ⟨cf', e, hs⟩ := sortTerms_spec 2 _ σ h1 h2
  rw [hcf] at e
  obtain rfl := Option.some.inj e
  have a0 := h1 0 (by norm_num)
  have a1 := h1 1 (by norm_num)
  have a01 : σ 0 ≠ σ 1 := fun h => absurd (h2 0 (by norm_num) 1 (by norm_num) h) (by norm_num)
  have h01 := h3 0 1 (by norm_num) (by norm_num)
  have s0 : σ 0 = 0 := by
    by_contra hne
    have e0 : σ 0 = 1 := by omega
    have e1 : σ 1 = 0 := by omega
    rw [e0, e1] at h01
    revert h01
    decide +kernel
  have s1 : σ 1 = 1 := by omega
  have c0 := hs 0 (by norm_num)
  have c1 := hs 1 (by norm_num)
  rw [s0] at c0
  rw [s1] at c1
  have hl : (List.range (0 + 1 + 1)).map (fun i => (cf i).1) = [0, 1] := by
    simp only [List.range_succ, List.range_zero, List.nil_append, List.cons_append, List.map_cons, List.map_nil, Nat.zero_add, c0, c1]
    decide +kernel
  rw [hl, show normInit (2 * ffBits 7) (ffBits 7) 7 [0, 1] = some [0, 0] by decide +kernel] at hn1
  obtain rfl := Option.some.inj hn1
  rw [show normInit (2 * ffBits 7) (ffBits 7) 7 [0, 0] = some [0, 0] by decide +kernel] at hn2
  obtain rfl := Option.some.inj hn2
  rw [List.map_snd_zip]
  simp

/-- `x+x+y`, as it is imported. -/
def dupPoly : Poly 2 := [(![1, 0], 1), (![1, 0], 1), (![0, 1], 1)]

theorem dup_import : ImportPoly 2 0 7 [(1, [1, 0]), (1, [1, 0]), (1, [0, 1])] dupPoly := by
  obtain ⟨cf, hcf, hs⟩ := sortTerms_spec 3
    (fun i => (([(1, [1, 0]), (1, [1, 0]), (1, [0, 1])] : List (ℤ × List ℤ)).map (importTerm 2 0 7)).getD i (0, fun _ => 0)) id
    (fun _ h => h) fun _ _ _ _ h => h
  have hl : (List.range 3).map cf =
      ([(1, [1, 0]), (1, [1, 0]), (1, [0, 1])] : List (ℤ × List ℤ)).map (importTerm 2 0 7) := by
    simp only [List.range_succ, List.range_zero, List.nil_append, List.cons_append, List.map_cons, List.map_nil,
      hs 0 (by norm_num), hs 1 (by norm_num), hs 2 (by norm_num), id]
    rfl
  refine ⟨id, cf, [1, 1, 1], [1, 1, 1], ⟨fun _ h => h, fun _ _ _ _ h => h, ?_⟩, hcf, ?_, by decide +kernel, ?_⟩
  · intro i j hij hj
    simp only [List.map_cons, List.map_nil, List.length_cons, List.length_nil] at hj
    have hi : i < 2 := by omega
    have hj' : j < 3 := hj
    interval_cases j <;> interval_cases i <;> decide +kernel
  · have : (List.range 3).map (fun i => (cf i).1) = [1, 1, 1] := by
      have := congrArg (List.map Prod.fst) hl
      rw [List.map_map] at this
      refine Eq.trans this ?_
      decide +kernel
    simp only [List.length_cons, List.length_nil]
    rw [this]
    decide +kernel
  · have : (List.range 3).map (fun i => monOf 2 0 (cf i).2) = [![1, 0], ![1, 0], ![0, 1]] := by
      have := congrArg (List.map fun x => monOf 2 0 x.2) hl
      rw [List.map_map] at this
      refine Eq.trans this ?_
      decide +kernel
    simp only [List.length_cons, List.length_nil]
    rw [this]
    rfl

theorem dup_done : done (start (stdCfg .drl 7 1) [dupPoly]) := by
  left
  show (Pairs.updateBasis 0 true id (elsOf 0 [dupPoly]) 1 init0).ps = []
  decide +kernel

theorem dup_lmps : finalLmps (start (stdCfg .drl 7 1) [dupPoly]) = some [0] := by
  show finalLmps ⟨[dupPoly], Pairs.updateBasis 0 true id (elsOf 0 [dupPoly]) 1 init0, false⟩ = _
  decide +kernel

theorem dup_sym : symLoop [dupPoly] [0] (finSym [dupPoly] [0]).ms.length 2 0 (finSym [dupPoly] [0]) =
    some ⟨[![1, 0], ![0, 1]], [![1, 0]], [], [⟨0, 0⟩]⟩ := by
  have h (X : Verif.F4.Sym 2 → List (Fin 2 → ℕ)) (l : List (Fin 2 → ℕ))
      (e : (symLoop [dupPoly] [0] (finSym [dupPoly] [0]).ms.length 2 0 (finSym [dupPoly] [0])).map X = some l) :
      ∀ s, symLoop [dupPoly] [0] (finSym [dupPoly] [0]).ms.length 2 0 (finSym [dupPoly] [0]) = some s → X s = l := by
    intro s hs
    rw [hs] at e
    exact Option.some.inj e
  have h1 := h (·.ms) [![1, 0], ![0, 1]] (by decide +kernel)
  have h2 := h (·.mark) [![1, 0]] (by decide +kernel)
  have h3 := h (fun s => s.rr.map (·.mul)) [] (by decide +kernel)
  have h4 := h (fun s => s.tr.map (·.mul)) [![0, 0]] (by decide +kernel)
  have h5 := h (fun s => s.tr.map fun r => ![r.gen, 0]) [![0, 0]] (by decide +kernel)
  have h6 : (symLoop [dupPoly] [0] (finSym [dupPoly] [0]).ms.length 2 0 (finSym [dupPoly] [0])).isSome = true := by decide +kernel
  obtain ⟨⟨a, b, c, d⟩, hs⟩ := Option.isSome_iff_exists.mp h6
  have h1 := h1 _ hs
  have h2 := h2 _ hs
  have h3 := h3 _ hs
  have h4 := h4 _ hs
  have h5 := h5 _ hs
  simp only [List.map_eq_nil_iff, List.map_eq_singleton_iff] at h1 h2 h3 h4 h5
  obtain ⟨⟨r1, r2⟩, rfl, h4⟩ := h4
  obtain ⟨⟨r1', r2'⟩, hr, h5⟩ := h5
  obtain ⟨rfl, rfl⟩ := by simpa using hr
  have h5 : r2 = 0 := congrFun h5 0
  simp only at h4
  have h4 : r1 = 0 := h4.trans (by decide)
  rw [hs, h1, h2, h3, h4, h5]

theorem dup_la : finLoop (par31 7 0 2) (finPivs [dupPoly] [![1, 0], ![0, 1]] [])
    ([⟨0, 0⟩].map fun r => (leadCol [dupPoly] [![1, 0], ![0, 1]] r, convRow [![1, 0], ![0, 1]] (rowPoly [dupPoly] r))) =
    some [[(0, 1), (1, 1)]] := by decide +kernel

theorem dup_final : Final (stdCfg .drl 7 1) (start (stdCfg .drl 7 1) [dupPoly]) [[(![1, 0], 1), (![0, 1], 1)]] := by
  refine ⟨[0], dup_lmps, 2, _, [![1, 0], ![0, 1]], [], [⟨0, 0⟩], _, [[(0, 1), (1, 1)]], by decide, dup_sym, ⟨.refl _, ?_⟩,
    .refl _, .refl _, by simp, .inl rfl, dup_la, ?_⟩
  · refine List.pairwise_pair.mpr (Or.inr ⟨by simp, ?_⟩)
    show Drl _ _
    simp only [Drl, DrlOn]
    decide
  · decide +kernel

/-- C73: a monomial that is written twice is not recognised, one of the two terms is lost: for `x+x+y` modulo 7 the output `x+y` is
possible, which is not in the ideal. -/
theorem C73_repeated_monomial : Run 0 "x,y\n7\nx+x+y\n".toList (header twoNames 7 0 1 ++ "[1*x^1+1*y^1]:\n".toList) ∧
    (MvPolynomial.X 0 + MvPolynomial.X 1 : MvPolynomial (Fin 2) (ZMod 7)) ∉
      Ideal.span {(MvPolynomial.X 0 + MvPolynomial.X 0 + MvPolynomial.X 1 : MvPolynomial (Fin 2) (ZMod 7))} := by
  constructor
  · have hC := stdCfg_ok (n := 2) .drl (p := 7) (by norm_num) (by norm_num) Nat.one_pos
    refine ⟨twoNames, 7, [[(1, [1, 0]), (1, [1, 0]), (1, [0, 1])]], _, 1, [dupPoly], [dupPoly], stdCfg .drl 7 1, _, _,
      by decide +kernel, by decide, by decide +kernel, .cons dup_import .nil, .refl _, rfl, rfl,
      ⟨hC.mnsel, hC.upd, hC.sel, hC.sorted⟩, .start, dup_done, dup_final, ?_⟩
    decide +kernel
  · rw [Ideal.mem_span_singleton]
    rintro ⟨q, hq⟩
    have := congrArg (MvPolynomial.eval (![1, 5] : Fin 2 → ZMod 7)) hq
    simp only [map_add, map_mul, MvPolynomial.eval_X] at this
    have e : ((![1, 5] : Fin 2 → ZMod 7) 0 + (![1, 5] : Fin 2 → ZMod 7) 0 + (![1, 5] : Fin 2 → ZMod 7) 1) = 0 := by decide
    rw [e, zero_mul] at this
    revert this
    decide

/-! ### An example -/

/-- `x^2+3*y` and `y^2-5`. -/
def eeTerms : List (List Text.Mon) :=
  [[⟨false, none, [⟨0, some ['2']⟩]⟩, ⟨false, some ⟨['3'], none⟩, [⟨1, none⟩]⟩],
   [⟨false, none, [⟨1, some ['2']⟩]⟩, ⟨true, some ⟨['5'], none⟩, []⟩]]
def eeFile : File := ⟨twoNames, ['1', '0', '1'], ["x^2 + 3*y".toList, "y^2-5".toList], ['\n']⟩

example : eeFile.text = "x,y\n101\nx^2 + 3*y,\ny^2-5\n".toList := by decide +kernel

theorem eeFile_ok : InputOk eeFile twoNames 101 eeTerms where
  file := by
    refine ⟨?_, by decide, by decide, ?_, by decide, ⟨['1', '0', '1'], [], rfl, ⟨by decide, by decide⟩, by decide, by simp⟩, by decide, by decide, ?_,
      by decide, by decide, ?_, by unfold Text.Fits; decide +kernel⟩
    · have h : ∀ nm ∈ twoNames, nm ≠ [] ∧ (∀ c ∈ nm.head?, c.isDigit = false) ∧
          ∀ c ∈ nm, c ∉ ['*', '^', '+', '-', ','] ∧ Text.isSpace c = false := by decide
      exact fun nm hm => ⟨(h nm hm).1, fun c l hcl => (h nm hm).2.1 c (by rw [hcl]; rfl), (h nm hm).2.2⟩
    · exact .cons ⟨[], [], rfl, by simp, by simp⟩ (.cons ⟨[], [], rfl, by simp, by simp⟩ .nil)
    · exact .cons ⟨by decide +kernel, by decide +kernel, by decide +kernel⟩ (.cons ⟨by decide +kernel, by decide +kernel, by decide +kernel⟩ .nil)
    · have h : ∀ ts ∈ eeTerms, ∀ t ∈ ts, (t.num ≠ none ∨ t.fs ≠ []) ∧
          (∀ a ∈ t.num, (a.n ≠ [] ∧ ∀ c ∈ a.n, c.isDigit = true) ∧ a.d = none) ∧ (∀ f ∈ t.fs, f.v < twoNames.length) ∧
          (∀ f ∈ t.fs, ∀ ds ∈ f.e, (ds ≠ [] ∧ ∀ c ∈ ds, c.isDigit = true) ∧ Text.dec ds < 2 ^ 31) ∧ (t.fs.map (·.v)).Nodup := by
        decide +kernel
      intro ts hts t ht
      obtain ⟨h1, h2, h3, h4, h5⟩ := h ts hts t ht
      exact ⟨h1, fun a ha => ⟨(h2 a ha).1, fun d hd => absurd hd (by rw [(h2 a ha).2]; simp)⟩, h3, h4, h5⟩
  prime := by norm_num
  first := by
    have h : ∀ ts ∈ eeTerms, ∀ t ∈ ts.head?, ∀ a ∈ t.num, a.d = none ∧ Text.dec a.n < 2 ^ 31 ∧ (t.neg = true → Text.dec a.n ≠ 0) := by
      decide +kernel
    exact h
  inner := by
    have h : ∀ ts ∈ eeTerms, ∀ t ∈ ts.tail, ∀ a ∈ t.num, a.d = none ∧ Text.dec a.n < 2 ^ 63 - 1 ∧ Text.dec a.n ≠ 0 := by
      decide +kernel
    exact h
  expanded := by
    have h : ∀ ts ∈ eeTerms, (∀ t ∈ ts, ¬ ((101 : ℕ) : ℤ) ∣ t.numer) ∧ (ts.map (Text.Mon.vec 2)).Nodup ∧
        ∀ t ∈ ts, ∑ i, t.vec 2 i < 65536 := by decide +kernel
    exact fun ts hts => ⟨(h ts hts).1, (h ts hts).2.1, (h ts hts).2.2⟩

def eeBasis : List (Poly 2) := [[(![2, 0], 1), (![0, 1], 3)], [(![0, 2], 1), (![0, 0], 96)]]

theorem eeBasis_ok : ∀ f ∈ eeBasis, PolyOk .drl 101 f := by
  intro f hf
  simp only [eeBasis, List.mem_cons, List.not_mem_nil, or_false] at hf
  rcases hf with rfl | rfl
  · refine ⟨⟨_, rfl⟩, ?_, by decide⟩
    simp only [OKind.lt, Drl, DrlOn]
    decide
  · refine ⟨⟨_, rfl⟩, ?_, by decide⟩
    simp only [OKind.lt, Drl, DrlOn]
    decide

theorem eeBasis_poly : { q | ∃ ts ∈ eeTerms, q = Text.poly 101 2 ts } = { q | ∃ f ∈ eeBasis, q = toMv 101 f } := by
  have h : eeTerms.map (Text.poly 101 2) = eeBasis.map (toMv 101) := by
    have e : ∀ (t : Text.Mon) (u : Fin 2 → ℕ) (c : ℕ), t.vec 2 = u → ((t.numer : ℤ) : ZMod 101) = ((c : ℕ) : ZMod 101) →
        t.poly 101 2 = MvPolynomial.monomial (fs u) ((c : ℕ) : ZMod 101) := by
      rintro t u c rfl h
      unfold Text.Mon.poly
      rw [h]; rfl
    simp only [eeTerms, eeBasis, List.map_cons, List.map_nil, Text.poly, toMv]
    rw [e _ ![2, 0] 1 (by decide +kernel) (by decide +kernel), e _ ![0, 1] 3 (by decide +kernel) (by decide +kernel),
      e _ ![0, 2] 1 (by decide +kernel) (by decide +kernel), e _ ![0, 0] 96 (by decide +kernel) (by decide +kernel)]
  ext q
  have h1 : (∃ ts ∈ eeTerms, q = Text.poly 101 2 ts) ↔ q ∈ eeTerms.map (Text.poly 101 2) := by
    rw [List.mem_map]; exact exists_congr fun _ => and_congr_right' eq_comm
  have h2 : (∃ ts ∈ eeBasis, q = toMv 101 ts) ↔ q ∈ eeBasis.map (toMv 101) := by
    rw [List.mem_map]; exact exists_congr fun _ => and_congr_right' eq_comm
  exact h1.trans (h ▸ h2.symm)

theorem eeBasis_reduced : have : Fact (Nat.Prime 101) := ⟨by norm_num⟩
    IsReducedGroebner OKind.drl.mo (inputIdeal 2 101 eeTerms) { q | ∃ f ∈ eeBasis, q = toMv 101 f } := by
  intro hF
  have hC := stdCfg_ok (n := 2) .drl (p := 101) (by norm_num) (by norm_num) Nat.one_pos
  have hd : done (start (stdCfg .drl 101 1) eeBasis) := by
    left
    show (Pairs.updateBasis 0 true id (elsOf 0 eeBasis) 2 init0).ps = []
    decide +kernel
  have hg := (C44_groebner hC eeBasis_ok .start hd).1
  refine ⟨?_, ?_, ?_⟩
  · unfold inputIdeal
    rw [eeBasis_poly]
    exact hg
  · rintro g ⟨f, hf, rfl⟩
    exact (eeBasis_ok f hf).monic
  · rintro g ⟨f, hf, rfl⟩ g' ⟨f', hf', rfl⟩ hne b hb hle
    rw [(eeBasis_ok f' hf').degree] at hle
    obtain ⟨v, rfl⟩ := fs_surj b
    rw [MvPolynomial.mem_support_iff] at hb
    have hv : ∃ t ∈ f, t.1 = v := by
      by_contra hno
      push Not at hno
      exact hb (toMv_coeff_zero 101 f v hno)
    obtain ⟨t, ht, rfl⟩ := hv
    have key : ∀ f ∈ eeBasis, ∀ f' ∈ eeBasis, f ≠ f' → ∀ t ∈ f, ¬ lead f' ≤ t.1 := by decide
    exact key f hf f' hf' (fun h => hne (h ▸ rfl)) t ht hle

theorem eeBasis_degree : have : Fact (Nat.Prime 101) := ⟨eeFile_ok.prime⟩
    ∀ B, IsReducedGroebner OKind.drl.mo (inputIdeal 2 101 eeTerms) B → ∀ g ∈ B, g.totalDegree < 65536 := by
  intro hF B hB g hg
  rw [reduced_unique hB eeBasis_reduced] at hg
  obtain ⟨f, hf, rfl⟩ := hg
  have key : ∀ f ∈ eeBasis, ∀ t ∈ f, t.1 0 + t.1 1 < 65536 := by decide
  unfold MvPolynomial.totalDegree
  rw [Finset.sup_lt_iff (by norm_num)]
  intro b hb
  obtain ⟨v, rfl⟩ := fs_surj b
  rw [MvPolynomial.mem_support_iff] at hb
  have hv : ∃ t ∈ f, t.1 = v := by
    by_contra hno
    push Not at hno
    exact hb (toMv_coeff_zero 101 f v hno)
  obtain ⟨t, ht, rfl⟩ := hv
  rw [Finsupp.sum_fintype _ _ (by simp)]
  have := key f hf t ht
  show ∑ i : Fin 2, t.1 i < 65536
  rw [Fin.sum_univ_two]
  exact this

/-- The hypotheses of `C73_groebner` hold for the file. -/
example : have : Fact (Nat.Prime 101) := ⟨eeFile_ok.prime⟩
    ∀ B, IsReducedGroebner OKind.drl.mo (inputIdeal twoNames.length 101 eeTerms) B → ∀ g ∈ B, g.totalDegree < 65536 := eeBasis_degree
example : ∃ out, Run 0 eeFile.text out := C73_exists eeFile_ok (by decide)
example : ∃ out, Run 1 eeFile.text out := C73_exists eeFile_ok (by decide)
/-- The output is unique. -/
example {out out' : List Char} (h : Run 1 eeFile.text out) (h' : Run 1 eeFile.text out') : out = out' :=
  C73_same_ideal eeFile_ok eeFile_ok rfl h h'

end EndToEnd
end Verif.Props
