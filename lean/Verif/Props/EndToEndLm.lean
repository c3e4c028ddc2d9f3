import Verif.EndToEndLm
import Verif.Spec.LeadHeader
import Verif.Props.EndToEnd

/-!
C87: the leading monomials printed by `msolve -g 1` over a prime field.
-/
namespace Verif.Props
namespace EndToEndLm

open Verif.Orders Verif.Import Verif.Normalize Verif.Parse Verif.F4 Verif.Spec Verif.EndToEnd Verif.Groebner Verif.Props.EndToEnd
open Verif.Spec.Text (File FileOk)

/-! ### The text -/

theorem headerLead_eq (names : List (List Char)) (p nev len : ℕ) : headerLead names p nev len = Text.leadHeaderMod p nev names len := by
  have d : ∀ k : ℕ, (toString k).toList = Nat.toDigits 10 k := fun k => Nat.toList_repr
  have hl : (Text.elementsText len).toList = if len = 1 then "1 element".toList else Nat.toDigits 10 len ++ " elements sorted by increasing leading monomials".toList := by
    unfold Text.elementsText
    split
    · rfl
    · rename_i h
      rw [if_neg (fun h1 => h h1), String.toList_append, d]
  have ho : (Text.orderText nev).toList = if nev = 0 then "graded reverse lexicographical".toList
      else if nev = 1 then "eliminating first variable, blocks: graded reverse lexicographical".toList
      else "eliminating first ".toList ++ Nat.toDigits 10 nev ++ " variables, blocks: graded reverse lexicographical".toList := by
    unfold Text.orderText
    split
    · rfl
    · rfl
    · rename_i h0 h1
      rw [if_neg (fun h => h0 h), if_neg (fun h => h1 h), String.toList_append, String.toList_append, d]
  unfold headerLead Text.leadHeaderMod
  simp only [List.map_cons, List.map_nil, List.flatten_cons, List.flatten_nil, String.toList_append, d, hl, ho, String.toList_ofList, List.append_nil]
  have e1 : "#Leading ideal data\n".toList = "#Leading ideal data".toList ++ ['\n'] := by decide +kernel
  have e2 : "#---\n".toList = "#---".toList ++ ['\n'] := by decide +kernel
  have e3 : "#monomial order:       graded reverse lexicographical\n".toList =
      "#monomial order:       ".toList ++ "graded reverse lexicographical".toList ++ ['\n'] := by decide +kernel
  have e4 : "#monomial order:       eliminating first variable, blocks: graded reverse lexicographical\n".toList =
      "#monomial order:       ".toList ++ "eliminating first variable, blocks: graded reverse lexicographical".toList ++ ['\n'] := by decide +kernel
  have e5 : "#monomial order:       eliminating first ".toList = "#monomial order:       ".toList ++ "eliminating first ".toList := by decide +kernel
  have e6 : " variables, blocks: graded reverse lexicographical\n".toList = " variables, blocks: graded reverse lexicographical".toList ++ ['\n'] := by decide +kernel
  have e7 : "#length of basis:      1 element\n".toList = "#length of basis:      ".toList ++ "1 element".toList ++ ['\n'] := by decide +kernel
  have e8 : " elements sorted by increasing leading monomials\n".toList = " elements sorted by increasing leading monomials".toList ++ ['\n'] := by decide +kernel
  rw [e1, e2, e3, e4, e5, e6, e7, e8]
  split_ifs <;> simp only [List.append_assoc]

/-- The monomial that is written without coefficient. -/
def leadMon (names : List (List Char)) (e : List ℕ) : Text.Mon := { printMon names 1 e with num := none }

theorem leadMon_text {names : List (List Char)} {e : List ℕ} (he : e.length = names.length) :
    leadFirst (names.zip e) = Text.line names [leadMon names e] := by
  have hz : names.zip e = (List.range names.length).map fun k => (names.getD k [], e.getD k 0) := by
    apply List.ext_getElem
    · simp [he]
    · intro i h1 h2
      have h3 : i < names.length := by simpa using h2
      simp [List.getD_eq_getElem?_getD, List.getElem?_eq_getElem h3, List.getElem?_eq_getElem (show i < e.length by omega)]
  have hline : Text.line names [leadMon names e] = List.intercalate ['*'] ((printMon names 1 e).fs.map (Text.Fac.text names)) := by
    simp [Text.line, leadMon, Text.Mon.body, Text.Mon.pieces, printMon]
  rw [hline, hz]
  unfold printMon
  simp only
  generalize List.range names.length = L
  have hrest : ∀ L : List ℕ, leadRest (L.map fun k => (names.getD k [], e.getD k 0)) =
      ((L.filterMap fun k => if 0 < e.getD k 0 then some (⟨k, some (Nat.toDigits 10 (e.getD k 0))⟩ : Text.Fac) else none).map (Text.Fac.text names)).flatMap
        fun q => '*' :: q := by
    intro L
    unfold leadRest
    induction L with
    | nil => rfl
    | cons k L ih =>
      rw [List.map_cons, List.flatMap_cons, ih, List.filterMap_cons]
      by_cases h : 0 < e.getD k 0
      · rw [if_pos h, if_pos h]
        simp [Text.Fac.text]
      · rw [if_neg h, if_neg h]
        simp
  induction L with
  | nil => rfl
  | cons k L ih =>
    rw [List.map_cons, leadFirst, List.filterMap_cons]
    by_cases h : 0 < e.getD k 0
    · rw [if_pos h, if_pos h]
      simp only [List.map_cons]
      rw [intercalate_star, hrest]
      simp [Text.Fac.text]
    · rw [if_neg h, if_neg h]
      exact ih

theorem leadMon_ok {names : List (List Char)} {e : List ℕ} (hlt : ∀ x ∈ e, x < 2 ^ 31) (h0 : ∃ k < names.length, 0 < e.getD k 0) : (leadMon names e).Ok names := by
  have h := printMon_ok (names := names) (c := 1) hlt
  refine ⟨.inr ?_, fun a ha => by simp [leadMon] at ha, h.vars, h.exps, h.nodup⟩
  obtain ⟨k, hk, hpos⟩ := h0
  have : k ∈ (printMon names 1 e).fs.map (·.v) := by
    rw [printMon_vs]
    exact List.mem_filter.mpr ⟨List.mem_range.mpr hk, by simpa using hpos⟩
  intro hc
  rw [show (printMon names 1 e).fs = [] from hc] at this
  simp at this

theorem leadMon_vec {names : List (List Char)} (u : Fin names.length → ℕ) :
    (leadMon names ((List.range names.length).map (ext u))).vec names.length = u := printMon_vec 1 u

theorem printLeads_text {names : List (List Char)} {nev : ℕ} (hnev : nev < names.length) (G : List (Poly names.length)) (hne : G ≠ [])
    (hG : ∀ g ∈ G, g ≠ [] ∧ ∀ i, lead g i < 65536) :
    printLeads names (ebl nev) (G.map (stored nev)) =
      List.intercalate [',', '\n'] (G.map fun g => Text.line names [leadMon names ((List.range names.length).map (ext (lead g)))]) ++ [']', ':', '\n'] := by
  induction G with
  | nil => exact absurd rfl hne
  | cons g G ih =>
    obtain ⟨h1, h2⟩ := hG g List.mem_cons_self
    obtain ⟨⟨u, c⟩, r, rfl⟩ := List.exists_cons_of_ne_nil h1
    have hu : ∀ i, u i < 65536 := h2
    have htext : leadFirst (names.zip (exponentsOf (ebl nev) ((List.range (evl names.length nev)).map (setEv names.length nev (ext u) fun _ => 0)))) =
        Text.line names [leadMon names ((List.range names.length).map (ext u))] := by
      rw [exponents_stored hnev u hu]
      exact leadMon_text (by simp)
    cases G with
    | nil =>
      simp only [List.map_cons, List.map_nil, stored, printLeads]
      rw [htext]
      simp [List.intercalate, lead]
    | cons g' G =>
      have ih := ih (by simp) fun x hx => hG x (List.mem_cons_of_mem _ hx)
      have hstep : printLeads names (ebl nev) ((((u, c) :: r) :: g' :: G).map (stored nev)) =
          leadFirst (names.zip (exponentsOf (ebl nev) ((List.range (evl names.length nev)).map (setEv names.length nev (ext u) fun _ => 0)))) ++ [',', '\n'] ++
            printLeads names (ebl nev) ((g' :: G).map (stored nev)) := rfl
      rw [hstep, htext, ih]
      simp only [List.map_cons]
      rw [List.intercalate_cons_cons]
      simp [lead]

/-! ### Runs -/

/-- The parts of an execution. -/
theorem runLead_parts {f : File} {names : List (List Char)} {p nev : ℕ} {tss : List (List Text.Mon)} (h : InputOk f names p tss)
    {out : List Char} (hr : RunLead nev f.text out) :
    nev < names.length ∧ ∃ (F : List (Poly names.length)) (C : Cfg names.length) (s : F4.St names.length) (G : List (Poly names.length)),
      F ≠ [] ∧ (∀ f ∈ F, PolyOk (ordKind nev) p f) ∧ Ideal.span { g | ∃ f ∈ F, g = toMv p f } = inputIdeal names.length p tss ∧
      CfgOk C ∧ C.ord = ordKind nev ∧ C.p = p ∧ Reach C F s ∧ done s ∧ Final C s G ∧ out = printLead names p nev G := by
  obtain ⟨names', p', ps, im, ng, F0, F, C, s, G, h1, h2, h3, h4, h5, h6, h7, h8, h9, h10, h11, h12⟩ := hr
  rw [read_file h] at h1
  have h1 := Option.some.inj h1
  injection h1 with e1 e2 e3
  have e2 : p = p' := by exact_mod_cast e2
  subst e1
  subst e2
  injection e3 with e3
  subst e3
  rw [import_all h.file.polys h.expanded] at h3
  injection h3 with e4 e5
  subst e4
  obtain ⟨k1, k2⟩ := import_ideal h2 h.prime h.file.small h.file.terms h.first h.expanded h4
  have hF : F ≠ [] := by
    rintro rfl
    have := h4.length_eq
    rw [List.length_map, ← h5.length_eq] at this
    exact h.file.polys (List.length_eq_zero_iff.mp this)
  refine ⟨h2, F, C, s, G, hF, fun f hf => k1 f (h5.mem_iff.mp hf), ?_, Run_cfg h8 (h7 ▸ h.prime) (h7 ▸ h.file.small), h6, h7, h9, h10, h11, h12⟩
  rw [← k2]
  congr 1
  ext g
  exact exists_congr fun f => and_congr_left' h5.mem_iff

/-- What the printed leading monomials of a reduced Gröbner basis are. -/
theorem text_of_leads {names : List (List Char)} {p' nev : ℕ} [Fact p'.Prime] (hnev : nev < names.length) {O' : OKind}
    {J : Ideal (MvPolynomial (Fin names.length) (ZMod p'))} {G : List (Poly names.length)} (hne : G ≠ [])
    (k1 : IsReducedGroebner O'.mo J { g | ∃ q ∈ G, g = toMv p' q }) (k2 : ∀ g ∈ G, PolyOk O' p' g) (k3 : G.Pairwise fun a b => O'.lt (lead a) (lead b))
    (hdeg : ∀ B, IsReducedGroebner O'.mo J B → ∀ g ∈ B, g.totalDegree < 65536) :
    ∃ bs : List (MvPolynomial (Fin names.length) (ZMod p')),
      IsReducedGroebner O'.mo J { b | b ∈ bs } ∧
      (bs.Pairwise fun a b => O'.mo.toSyn (O'.mo.degree a) < O'.mo.toSyn (O'.mo.degree b)) ∧
      (J ≠ ⊤ → ∃ tl : List Text.Mon,
        printLead names p' nev G = Text.leadHeaderMod p' nev names bs.length ++
          '[' :: List.intercalate ",\n".toList (tl.map fun t => Text.line names [t]) ++ "]:\n".toList ∧
        List.Forall₂ (fun b t => t.Ok names ∧ t.numer = 1 ∧ t.denom = 1 ∧ Finsupp.equivFunOnFinite.symm (t.vec names.length) = O'.mo.degree b) bs tl) ∧
      (J = ⊤ → printLead names p' nev G = Text.leadHeaderMod p' nev names 1 ++ "[]:\n".toList) := by
  have hlt : ∀ g ∈ G, ∀ i, lead g i < 65536 := by
    intro g hg i
    have hd := hdeg _ k1 _ ⟨g, hg, rfl⟩
    have hsupp : fs (lead g) ∈ (toMv p' g).support := by
      rw [← (k2 g hg).degree]
      refine O'.mo.degree_mem_support fun h0 => ?_
      have := (k2 g hg).monic
      rw [h0, MonomialOrder.leadingCoeff_zero] at this
      exact zero_ne_one this
    have := MvPolynomial.le_totalDegree hsupp
    have hi : lead g i ≤ (fs (lead g)).sum fun _ e => e := by
      rw [Finsupp.sum_fintype _ _ (by simp)]
      exact Finset.single_le_sum (f := fun i => fs (lead g) i) (fun _ _ => Nat.zero_le _) (Finset.mem_univ i)
    omega
  have hset : { b | b ∈ G.map (toMv p') } = { g | ∃ f ∈ G, g = toMv p' f } := by
    ext b
    simp only [List.mem_map, Set.mem_ofPred_eq]
    exact exists_congr fun _ => and_congr_right' eq_comm
  have htext := printLeads_text hnev G hne fun g hg => ⟨by
    obtain ⟨r, hr⟩ := (k2 g hg).head
    rw [hr]; simp, hlt g hg⟩
  refine ⟨G.map (toMv p'), hset ▸ k1, ?_, ?_, ?_⟩
  · rw [List.pairwise_map]
    refine List.Pairwise.imp_of_mem ?_ k3
    intro a b ha hb hab
    rw [(k2 a ha).degree, (k2 b hb).degree]
    exact (F4.lt_iff _ _ _).mpr hab
  · intro htop
    refine ⟨G.map fun g => leadMon names ((List.range names.length).map (ext (lead g))), ?_, ?_⟩
    · rw [printLead, headerLead_eq, htext, List.length_map, List.map_map]
      simp only [List.append_assoc]
      rfl
    · rw [List.forall₂_map_left_iff, List.forall₂_map_right_iff, List.forall₂_same]
      intro g hg
      refine ⟨leadMon_ok ?_ ?_, rfl, rfl, ?_⟩
      · intro x hx
        obtain ⟨i, hi, rfl⟩ := List.mem_map.mp hx
        have hi := List.mem_range.mp hi
        rw [show i = (⟨i, hi⟩ : Fin names.length).val from rfl, ext_val]
        have := hlt g hg ⟨i, hi⟩
        omega
      · by_contra hcon
        push Not at hcon
        apply htop
        have h0 : lead g = 0 := by
          funext i
          have := hcon i i.isLt
          simpa [List.getD_eq_getElem?_getD, ext_val] using this
        have hd := (k2 g hg).degree
        rw [h0, show fs (0 : Fin names.length → ℕ) = 0 from fs_zero] at hd
        have h1 : toMv p' g = 1 := by
          rw [MonomialOrder.eq_C_of_degree_eq_zero hd, (k2 g hg).monic, MvPolynomial.C_1]
        exact (Ideal.eq_top_iff_one _).mpr (h1 ▸ k1.1.1 _ ⟨g, hg, rfl⟩)
      · rw [leadMon_vec, (k2 g hg).degree]
        rfl
  · intro htop
    have hone : (1 : MvPolynomial (Fin names.length) (ZMod p')) ∈ J := htop ▸ Submodule.mem_top
    obtain ⟨b, ⟨g, hg, rfl⟩, -, hle⟩ := k1.1.2 1 hone one_ne_zero
    rw [MonomialOrder.degree_one, (k2 g hg).degree] at hle
    have h0 : lead g = 0 := by
      funext i
      exact Nat.le_zero.mp (hle i)
    have hall : ∀ g' ∈ G, g' = g := by
      intro g' hg'
      by_contra hcon
      have hne' : toMv p' g' ≠ 0 := fun h0 => by
        have := (k2 g' hg').monic
        rw [h0, MonomialOrder.leadingCoeff_zero] at this
        exact zero_ne_one this
      refine k1.2.2 _ ⟨g', hg', rfl⟩ _ ⟨g, hg, rfl⟩ (fun he => hcon (toMv_injOn (k2 g' hg') (k2 g hg) he)) _ (O'.mo.degree_mem_support hne') ?_
      rw [(k2 g hg).degree, h0, fs_zero]
      exact fun _ => Nat.zero_le _
    have hG1 : G = [g] := by
      have hnd : G.Nodup := by
        refine List.Pairwise.imp ?_ k3
        rintro a b hab rfl
        exact (OKind.adm O').irrefl _ hab
      exact (List.nodup_iff_count_le_one.mp hnd) |> fun _ => by
        cases G with
        | nil => simp at hg
        | cons a G =>
          obtain rfl := hall a List.mem_cons_self
          cases G with
          | nil => rfl
          | cons c G =>
            obtain rfl := hall c (by simp)
            simp at hnd
    subst hG1
    rw [printLead, headerLead_eq, htext]
    have : ∀ k ∈ List.range names.length, ¬ 0 < ((List.range names.length).map (ext (lead g))).getD k 0 := by
      intro k hk
      have hk := List.mem_range.mp hk
      rw [h0]
      simp [List.getD_eq_getElem?_getD, hk, ext]
    have hl : Text.line names [leadMon names ((List.range names.length).map (ext (lead g)))] = [] := by
      have hfs : (printMon names 1 ((List.range names.length).map (ext (lead g)))).fs = [] := by
        unfold printMon
        simp only
        rw [List.filterMap_eq_nil_iff]
        intro k hk
        rw [if_neg (this k hk)]
      have : (leadMon names ((List.range names.length).map (ext (lead g)))).fs = [] := hfs
      have hn : (leadMon names ((List.range names.length).map (ext (lead g)))).num = none := rfl
      have hs : (leadMon names ((List.range names.length).map (ext (lead g)))).neg = false := rfl
      simp only [Text.line, Text.Mon.body, Text.Mon.pieces, this, hn, hs]
      rfl
    simp only [List.map_cons, List.map_nil, List.length_cons, List.length_nil, hl]
    rfl

/-- **C87**: for every input file over a prime field, with `bs` the reduced Gröbner basis of the ideal: `msolve -g 1` prints the comments, with the number of elements of
`bs`, and the leading monomials of the elements of `bs` in increasing order, without coefficients, except for the unit ideal: for this the list that is printed is
empty, the monomial 1 is not written.  The degrees in the reduced basis are assumed to be below `2^16`. -/
theorem C87_leads {f : File} {names : List (List Char)} {p nev : ℕ} {tss : List (List Text.Mon)} (h : InputOk f names p tss)
    {O : OKind} (hO : O = if nev = 0 then .drl else .be nev)
    (hdeg : have : Fact p.Prime := ⟨h.prime⟩
      ∀ B, IsReducedGroebner O.mo (inputIdeal names.length p tss) B → ∀ g ∈ B, g.totalDegree < 65536)
    {out : List Char} (hr : RunLead nev f.text out) :
    have : Fact p.Prime := ⟨h.prime⟩
    ∃ bs : List (MvPolynomial (Fin names.length) (ZMod p)),
      IsReducedGroebner O.mo (inputIdeal names.length p tss) { b | b ∈ bs } ∧
      (bs.Pairwise fun a b => O.mo.toSyn (O.mo.degree a) < O.mo.toSyn (O.mo.degree b)) ∧
      (inputIdeal names.length p tss ≠ ⊤ → ∃ tl : List Text.Mon,
        out = Text.leadHeaderMod p nev names bs.length ++
          '[' :: List.intercalate ",\n".toList (tl.map fun t => Text.line names [t]) ++ "]:\n".toList ∧
        List.Forall₂ (fun b t => t.Ok names ∧ t.numer = 1 ∧ t.denom = 1 ∧ Finsupp.equivFunOnFinite.symm (t.vec names.length) = O.mo.degree b) bs tl) ∧
      (inputIdeal names.length p tss = ⊤ → out = Text.leadHeaderMod p nev names 1 ++ "[]:\n".toList) := by
  have hF : Fact p.Prime := ⟨h.prime⟩
  obtain ⟨hnev, F, C, s, G, hFne, h1, h2, h3, h4, h5, h6, h7, h8, rfl⟩ := runLead_parts h hr
  obtain ⟨O', p', m, u, v⟩ := C
  simp only at h4 h5
  have hO' : O' = O := by rw [h4, hO]; rfl
  subst hO'
  subst h5
  rw [← h4] at h1
  obtain ⟨k1, k2, k3⟩ := (C44_reduced h3 h1).2 s G h6 h7 h8
  simp only at k1 k2 k3
  rw [h2] at k1
  have hne : G ≠ [] := by
    rintro rfl
    obtain ⟨f0, hf0⟩ := List.exists_mem_of_ne_nil _ hFne
    have hmem : toMv p' f0 ∈ inputIdeal names.length p' tss := h2 ▸ Ideal.subset_span ⟨f0, hf0, rfl⟩
    obtain ⟨b, ⟨g, hg, -⟩, -⟩ := k1.1.2 _ hmem fun h0 => by
      have := (h1 f0 hf0).monic
      rw [h0, MonomialOrder.leadingCoeff_zero] at this
      exact zero_ne_one this
    simp at hg
  exact text_of_leads hnev hne k1 k2 k3 hdeg

theorem run_lead {nev : ℕ} {input out : List Char} (h : Run nev input out) : ∃ out', RunLead nev input out' := by
  obtain ⟨names, p, ps, im, ng, F0, F, C, s, G, h1, h2, h3, h4, h5, h6, h7, h8, h9, h10, h11, -⟩ := h
  exact ⟨_, names, p, ps, im, ng, F0, F, C, s, G, h1, h2, h3, h4, h5, h6, h7, h8, h9, h10, h11, rfl⟩

/-- **C87**: something is printed. -/
theorem C87_exists {f : File} {names : List (List Char)} {p nev : ℕ} {tss : List (List Text.Mon)} (h : InputOk f names p tss)
    (hnev : nev < names.length) : ∃ out, RunLead nev f.text out := by
  obtain ⟨out, hr⟩ := C73_exists h hnev
  exact run_lead hr

/-- **C87**: files with the same variables whose polynomials generate the same ideal give the same output. -/
theorem C87_same_ideal {f f' : File} {names : List (List Char)} {p nev : ℕ} {tss tss' : List (List Text.Mon)}
    (h : InputOk f names p tss) (h' : InputOk f' names p tss') (hI : inputIdeal names.length p tss = inputIdeal names.length p tss')
    {out out' : List Char} (hr : RunLead nev f.text out) (hr' : RunLead nev f'.text out') : out = out' := by
  obtain ⟨hnev, F, C, s, G, -, h1, h2, h3, h4, h5, h6, h7, h8, rfl⟩ := runLead_parts h hr
  obtain ⟨-, F', C', s', G', -, h1', h2', h3', h4', h5', h6', h7', h8', rfl⟩ := runLead_parts h' hr'
  obtain ⟨O, p', m, u, v⟩ := C
  simp only at h4 h5
  subst h4
  subst h5
  have := C51_deterministic h3 h3' h4'.symm h5'.symm h1 h1' (by rw [h2, h2', hI]) h6 h7 h8 h6' h7' h8'
  rw [this]

/-! ### Examples -/

/-- `x` and `x+1`. -/
def unTerms : List (List Text.Mon) :=
  [[⟨false, none, [⟨0, none⟩]⟩], [⟨false, none, [⟨0, none⟩]⟩, ⟨false, some ⟨['1'], none⟩, []⟩]]
def unFile : File := ⟨twoNames, ['1', '0', '1'], ["x".toList, "x+1".toList], ['\n']⟩

example : unFile.text = "x,y\n101\nx,\nx+1\n".toList := by decide +kernel

theorem unFile_ok : InputOk unFile twoNames 101 unTerms where
  file := by
    refine ⟨?_, by decide, by decide, ?_, by decide, ⟨['1', '0', '1'], [], rfl, ⟨by decide, by decide⟩, by decide, by simp⟩, by decide, by decide, ?_,
      by decide, by decide, ?_, by unfold Text.Fits; decide +kernel⟩
    · have h : ∀ nm ∈ twoNames, nm ≠ [] ∧ (∀ c ∈ nm.head?, c.isDigit = false) ∧
          ∀ c ∈ nm, c ∉ ['*', '^', '+', '-', ','] ∧ Text.isSpace c = false := by decide
      exact fun nm hm => ⟨(h nm hm).1, fun c l hcl => (h nm hm).2.1 c (by rw [hcl]; rfl), (h nm hm).2.2⟩
    · exact .cons ⟨[], [], rfl, by simp, by simp⟩ (.cons ⟨[], [], rfl, by simp, by simp⟩ .nil)
    · exact .cons ⟨by decide +kernel, by decide +kernel, by decide +kernel⟩ (.cons ⟨by decide +kernel, by decide +kernel, by decide +kernel⟩ .nil)
    · have h : ∀ ts ∈ unTerms, ∀ t ∈ ts, (t.num ≠ none ∨ t.fs ≠ []) ∧
          (∀ a ∈ t.num, (a.n ≠ [] ∧ ∀ c ∈ a.n, c.isDigit = true) ∧ a.d = none) ∧ (∀ f ∈ t.fs, f.v < twoNames.length) ∧
          (∀ f ∈ t.fs, ∀ ds ∈ f.e, (ds ≠ [] ∧ ∀ c ∈ ds, c.isDigit = true) ∧ Text.dec ds < 2 ^ 31) ∧ (t.fs.map (·.v)).Nodup := by
        decide +kernel
      intro ts hts t ht
      obtain ⟨h1, h2, h3, h4, h5⟩ := h ts hts t ht
      exact ⟨h1, fun a ha => ⟨(h2 a ha).1, fun d hd => absurd hd (by rw [(h2 a ha).2]; simp)⟩, h3, h4, h5⟩
  prime := by norm_num
  first := by
    have h : ∀ ts ∈ unTerms, ∀ t ∈ ts.head?, ∀ a ∈ t.num, a.d = none ∧ Text.dec a.n < 2 ^ 31 ∧ (t.neg = true → Text.dec a.n ≠ 0) := by
      decide +kernel
    exact h
  inner := by
    have h : ∀ ts ∈ unTerms, ∀ t ∈ ts.tail, ∀ a ∈ t.num, a.d = none ∧ Text.dec a.n < 2 ^ 63 - 1 ∧ Text.dec a.n ≠ 0 := by
      decide +kernel
    exact h
  expanded := by
    have h : ∀ ts ∈ unTerms, (∀ t ∈ ts, ¬ ((101 : ℕ) : ℤ) ∣ t.numer) ∧ (ts.map (Text.Mon.vec 2)).Nodup ∧
        ∀ t ∈ ts, ∑ i, t.vec 2 i < 65536 := by decide +kernel
    exact fun ts hts => ⟨(h ts hts).1, (h ts hts).2.1, (h ts hts).2.2⟩

theorem un_ideal : inputIdeal 2 101 unTerms = ⊤ := by
  rw [Ideal.eq_top_iff_one]
  have h1 : Text.poly 101 2 [⟨false, none, [⟨0, none⟩]⟩] ∈ inputIdeal 2 101 unTerms := Ideal.subset_span ⟨_, by simp [unTerms], rfl⟩
  have h2 : Text.poly 101 2 [⟨false, none, [⟨0, none⟩]⟩, ⟨false, some ⟨['1'], none⟩, []⟩] ∈ inputIdeal 2 101 unTerms :=
    Ideal.subset_span ⟨_, by simp [unTerms], rfl⟩
  have h := Ideal.sub_mem _ h2 h1
  have he : Text.poly 101 2 [⟨false, none, [⟨0, none⟩]⟩, ⟨false, some ⟨['1'], none⟩, []⟩] - Text.poly 101 2 [⟨false, none, [⟨0, none⟩]⟩] = 1 := by
    have hv : (⟨false, some ⟨['1'], none⟩, []⟩ : Text.Mon).poly 101 2 = 1 := by
      unfold Text.Mon.poly
      have hn : (⟨false, some ⟨['1'], none⟩, []⟩ : Text.Mon).numer = 1 := by decide +kernel
      have hw : (⟨false, some ⟨['1'], none⟩, []⟩ : Text.Mon).vec 2 = 0 := by decide +kernel
      rw [hn, hw, Int.cast_one]
      exact congrArg (fun u => MvPolynomial.monomial u (1 : ZMod 101)) (fs_zero (n := 2))
    simp only [Text.poly, List.map_cons, List.map_nil, List.sum_cons, List.sum_nil, hv]
    ring
  rwa [he] at h

/-- C87: for the unit ideal no monomial is printed although the comment announces one: `msolve -g 1` on `x`, `x+1` modulo 101. -/
theorem C87_unit : (∃ out, RunLead 0 unFile.text out) ∧ ∀ out, RunLead 0 unFile.text out →
    out = Text.leadHeaderMod 101 0 twoNames 1 ++ "[]:\n".toList := by
  refine ⟨C87_exists unFile_ok (by decide), fun out hr => ?_⟩
  have hF : Fact (Nat.Prime 101) := ⟨by norm_num⟩
  refine (C87_leads unFile_ok (O := .drl) rfl ?_ hr).choose_spec.2.2.2 un_ideal
  intro hF' B hB g hg
  have h1 : IsReducedGroebner OKind.drl.mo (inputIdeal twoNames.length 101 unTerms) ({1} : Set (MvPolynomial (Fin twoNames.length) (ZMod 101))) := by
    rw [show inputIdeal twoNames.length 101 unTerms = ⊤ from un_ideal]
    refine ⟨⟨by simp, fun f _ hf => ⟨1, rfl, one_ne_zero, by rw [MonomialOrder.degree_one]; exact fun _ => Nat.zero_le _⟩⟩, by simp, ?_⟩
    rintro g rfl g' rfl hne
    exact absurd rfl hne
  have := reduced_unique hB h1
  rw [this] at hg
  rw [show g = 1 from hg]
  simp

/-- The hypotheses of `C87_leads` are met and the output is not empty. -/
example : ∃ out, RunLead 0 eeFile.text out ∧ ∃ (bs : List (MvPolynomial (Fin 2) (ZMod 101))) (tl : List Text.Mon),
    out = Text.leadHeaderMod 101 0 twoNames bs.length ++
      '[' :: List.intercalate ",\n".toList (tl.map fun t => Text.line twoNames [t]) ++ "]:\n".toList := by
  have hF : Fact (Nat.Prime 101) := ⟨by norm_num⟩
  obtain ⟨out, hr⟩ := C87_exists eeFile_ok (nev := 0) (by decide)
  obtain ⟨bs, h1, -, h2, -⟩ := C87_leads eeFile_ok (O := .drl) rfl eeBasis_degree hr
  obtain ⟨tl, h3, -⟩ := h2 fun htop => by
    have hone : (1 : MvPolynomial (Fin 2) (ZMod 101)) ∈ inputIdeal 2 101 eeTerms := (Ideal.eq_top_iff_one _).mp htop
    obtain ⟨b, ⟨g, hg, rfl⟩, -, hle⟩ := eeBasis_reduced.1.2 1 hone one_ne_zero
    rw [MonomialOrder.degree_one, (eeBasis_ok g hg).degree] at hle
    have key : ∀ g ∈ eeBasis, ¬ (lead g 0 ≤ 0 ∧ lead g 1 ≤ 0) := by decide
    exact key g hg ⟨hle 0, hle 1⟩
  exact ⟨out, hr, bs, tl, h3⟩

/-- The exact text for a basis with leading monomials `y^2` and `x^2`. -/
example : printLead twoNames 101 0 [[(![0, 2], 1), (![0, 0], 96)], [(![2, 0], 1), (![0, 1], 3)]] =
    Text.leadHeaderMod 101 0 twoNames 2 ++ "[y^2,\nx^2]:\n".toList := by
  rw [printLead, headerLead_eq]
  decide +kernel

end EndToEndLm
end Verif.Props
