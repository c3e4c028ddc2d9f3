import Verif.EndToEndSat
import Verif.Props.EndToEndLm
import Verif.Props.EndToEndNf
import Verif.Props.Saturate

/-!
C90: `msolve -S` over a prime field, from the input file to the output file.
-/
namespace Verif.Props
namespace EndToEndSat

open Verif.Orders Verif.Import Verif.Normalize Verif.Parse Verif.F4 Verif.Spec Verif.EndToEnd Verif.Groebner Verif.Props.EndToEnd Verif.EndToEndNf
open Verif.Spec.Text (File FileOk)
open Verif.EndToEndSat (printSat isConst)

/-- What the printed text of a reduced Gröbner basis is, see C73. -/
theorem text_of_basis {names : List (List Char)} {p nev : ℕ} [Fact p.Prime] (hnm : ∀ nm ∈ names, Text.Name nm) (hnev : nev < names.length) {O : OKind}
    {J : Ideal (MvPolynomial (Fin names.length) (ZMod p))} {G : List (Poly names.length)}
    (k1 : IsReducedGroebner O.mo J { g | ∃ q ∈ G, g = toMv p q }) (k2 : ∀ g ∈ G, PolyOk O p g) (k3 : G.Pairwise fun a b => O.lt (lead a) (lead b))
    (hdeg : ∀ g ∈ G, (toMv p g).totalDegree < 65536) :
    ∃ (cs : List (List Char)) (gs : List (List Text.Mon)),
      printBasis names p nev G = (cs.map comment).flatten ++ '[' :: List.intercalate ",\n".toList (gs.map (Text.line names)) ++ "]:\n".toList ∧
      Comments names p nev gs.length cs ∧
      (∀ g ∈ gs, g ≠ [] ∧ (∀ t ∈ g, t.Ok names ∧ t.denom = 1 ∧ 0 < t.numer ∧ t.numer < p) ∧
        g.Pairwise fun a b => O.lt (b.vec names.length) (a.vec names.length)) ∧
      gs.Pairwise (fun a b => ∀ s ∈ a.head?, ∀ t ∈ b.head?, O.lt (s.vec names.length) (t.vec names.length)) ∧
      IsReducedGroebner O.mo J { q | ∃ g ∈ gs, q = Text.poly p names.length g } := by
  have hexp : ∀ g ∈ G, ∀ t ∈ g, ∀ i, t.1 i < 65536 := by
    intro g hg t ht i
    have hd := hdeg g hg
    have hc := toMv_coeff p g (k2 g hg).sorted t ht
    have hsupp : fs t.1 ∈ (toMv p g).support := by
      rw [MvPolynomial.mem_support_iff, hc]
      intro h0
      rw [ZMod.natCast_eq_zero_iff] at h0
      have := (k2 g hg).coeff t ht
      exact absurd (Nat.le_of_dvd this.1 h0) (by omega)
    have := MvPolynomial.le_totalDegree hsupp
    have hi : t.1 i ≤ (fs t.1).sum fun _ e => e := by
      rw [Finsupp.sum_fintype _ _ (by simp)]
      exact Finset.single_le_sum (f := fun i => fs t.1 i) (fun _ _ => Nat.zero_le _) (Finset.mem_univ i)
    omega
  obtain ⟨cs, hcs, hC⟩ := header_comments hnm p nev G.length
  have hlead : ∀ g ∈ G, ∃ r, printed names nev g = printMon names 1 ((List.range names.length).map (ext (lead g))) :: r := by
    intro g hg
    obtain ⟨r, hr⟩ := (k2 g hg).head
    rw [printed_eq hnev (hexp g hg), hr]
    exact ⟨_, rfl⟩
  refine ⟨cs, G.map (printed names nev), ?_, by rw [List.length_map]; exact hC, ?_, ?_, ?_⟩
  · unfold printBasis printPolys
    rw [hcs, ← List.append_assoc, List.map_map, List.map_map]
    have : G.map (printPoly names (ebl nev) ∘ stored nev) = G.map (Text.line names ∘ printed names nev) := by
      apply List.map_congr_left
      intro g hg
      obtain ⟨r, hr⟩ := hlead g hg
      refine printPoly_line ?_ ?_
      · intro h0
        unfold printed printMons at hr
        rw [h0] at hr
        cases hr
      · intro x hx
        obtain ⟨t, ht, rfl⟩ := List.mem_map.mp hx
        simp only
        rw [exponents_stored hnev _ (hexp g hg t ht)]
        simp
    rw [this]
    rfl
  · intro g' hg'
    obtain ⟨g, hg, rfl⟩ := List.mem_map.mp hg'
    refine ⟨?_, ?_, ?_⟩
    · obtain ⟨r, hr⟩ := hlead g hg
      rw [hr]; simp
    · rw [printed_eq hnev (hexp g hg)]
      intro t' ht'
      obtain ⟨t, ht, rfl⟩ := List.mem_map.mp ht'
      refine ⟨printMon_ok ?_, rfl, ?_, ?_⟩
      · intro x hx
        obtain ⟨i, hi, rfl⟩ := List.mem_map.mp hx
        have hi := List.mem_range.mp hi
        rw [show i = (⟨i, hi⟩ : Fin names.length).val from rfl, ext_val]
        have := hexp g hg t ht ⟨i, hi⟩
        omega
      · rw [printMon_numer]
        have := (k2 g hg).coeff t ht
        omega
      · rw [printMon_numer]
        have := (k2 g hg).coeff t ht
        omega
    · rw [printed_eq hnev (hexp g hg), List.pairwise_map]
      simp only [printMon_vec]
      have := (k2 g hg).sorted
      rw [List.pairwise_map] at this
      exact this
  · rw [List.pairwise_map]
    refine List.Pairwise.imp_of_mem ?_ k3
    intro a b ha hb hab
    obtain ⟨r, hr⟩ := hlead a ha
    obtain ⟨r', hr'⟩ := hlead b hb
    rw [hr, hr']
    simp only [List.head?_cons, Option.mem_def, Option.some.injEq]
    rintro _ rfl _ rfl
    rw [printMon_vec, printMon_vec]
    exact hab
  · have : { q | ∃ g ∈ G.map (printed names nev), q = Text.poly p names.length g } = { q | ∃ g ∈ G, q = toMv p g } := by
      ext q
      constructor
      · rintro ⟨g', hg', rfl⟩
        obtain ⟨g, hg, rfl⟩ := List.mem_map.mp hg'
        exact ⟨g, hg, printed_poly hnev (hexp g hg)⟩
      · rintro ⟨g, hg, rfl⟩
        exact ⟨_, List.mem_map_of_mem hg, (printed_poly hnev (hexp g hg)).symm⟩
    rw [this]
    exact k1


/-- The parts of an execution. -/
theorem run_parts {f : File} {names : List (List Char)} {p : ℕ} {tss : List (List Text.Mon)} {ts : List Text.Mon} (h : InputOk f names p (tss ++ [ts])) {g : ℤ}
    {const : Bool} {out : List Char} (hr : Verif.EndToEndSat.Run g f.text const out) :
    2 ^ 16 < p ∧ ∃ (F : List (Poly names.length)) (q : Poly names.length) (C : Cfg names.length) (e : SEnd names.length) (G : List (Poly names.length)),
      SatPre C F q ∧ C.p = p ∧ C.ord = .drl ∧ inIdeal p F = inputIdeal names.length p tss ∧ toMv p q = Text.poly p names.length ts ∧ SatResult C F q e G ∧ G ≠ [] ∧
      const = isConst e ∧ out = printSat names p g G := by
  obtain ⟨names', p', ps, im, ng, F0, F, q, C, e, G, h1, hb, h2, h3, h4, h5, h6, h7, h8, h9, h10, h11, h12, h13⟩ := hr
  rw [read_file h] at h1
  have h1 := Option.some.inj h1
  injection h1 with e1 e2 e3
  have e2 : p = p' := by exact_mod_cast e2
  subst e1
  subst e2
  injection e3 with e3
  subst e3
  have hsmall := h.file.small
  have hbig : 2 ^ 16 < p := by
    by_contra hc
    have hp16 : p ≠ 2 ^ 16 := by
      intro h0
      have := h.prime
      rw [h0] at this
      exact absurd this (by norm_num)
    refine hb ?_
    have hi : Import.toInt32 p = p := by
      have h1 : (p : ℤ) % 2 ^ 32 = p := Int.emod_eq_of_lt (by omega) (by omega)
      unfold Import.toInt32
      dsimp only
      rw [h1, if_pos (by omega)]
    unfold ffBits
    rw [hi]
    dsimp only
    have := h.prime.pos
    split_ifs <;> omega
  rw [EndToEndNf.import_first h.expanded] at h3
  split_ifs at h3 with hlen
  injection h3 with e4 e5
  subst e4
  have hl : (tss ++ [ts]).length - 1 = tss.length := by simp
  rw [hl, List.take_left'  rfl] at h4
  have sub1 : ∀ t ∈ tss, t ∈ tss ++ [ts] := fun t ht => List.mem_append_left _ ht
  have sub2 : ts ∈ tss ++ [ts] := by simp
  obtain ⟨k1, k2⟩ := import_ideal h2 h.prime hsmall (fun t ht => h.file.terms t (sub1 t ht)) (fun t ht => h.first t (sub1 t ht)) (fun t ht => h.expanded t (sub1 t ht)) h4
  rw [List.length_map, hl, ← List.map_drop, List.drop_left' rfl] at h6
  have h6 := (List.forall₂_cons.mp h6).1
  obtain ⟨m1, m2⟩ := importTbr_spec h2 h.prime hsmall (h.first ts sub2) (h.expanded ts sub2).distinct (h.expanded ts sub2).deg h6
  obtain ⟨O, p', m, u, v⟩ := C
  simp only at h7 h8
  subst h7
  subst h8
  refine ⟨hbig, F, q, _, e, G, ⟨Run_cfg h9 h.prime hsmall, rfl, hbig, fun f hf => k1 f (h5.mem_iff.mp hf), m1⟩, rfl, rfl, ?_, m2, h10, h11, h12, h13⟩
  rw [← k2]
  unfold inIdeal
  congr 1
  ext g
  exact exists_congr fun f => and_congr_left' h5.mem_iff

/-- **C90**: what `msolve -S -g 2` writes is, after comments, the reduced Gröbner basis of an ideal between the ideal `I` of the generators and its saturation `I : f^∞` by the last
polynomial `f` of the file, if the degrees in this basis are below `2^16`.

Partial: the full claim, that it is the saturation, is false, see `C90_not_saturated`. -/
theorem C90_between_partial {f : File} {names : List (List Char)} {p : ℕ} {tss : List (List Text.Mon)} {ts : List Text.Mon} (h : InputOk f names p (tss ++ [ts]))
    {const : Bool} {out : List Char} (hr : Verif.EndToEndSat.Run 2 f.text const out) :
    have : Fact p.Prime := ⟨h.prime⟩
    ∃ J : Ideal (MvPolynomial (Fin names.length) (ZMod p)), Between (inputIdeal names.length p tss) (Text.poly p names.length ts) J ∧
      ((∀ B, IsReducedGroebner OKind.drl.mo J B → ∀ g ∈ B, g.totalDegree < 65536) → ∃ (cs : List (List Char)) (gs : List (List Text.Mon)),
      out = (cs.map comment).flatten ++ '[' :: List.intercalate ",\n".toList (gs.map (Text.line names)) ++ "]:\n".toList ∧
      Comments names p 0 gs.length cs ∧
      (∀ g ∈ gs, g ≠ [] ∧ (∀ t ∈ g, t.Ok names ∧ t.denom = 1 ∧ 0 < t.numer ∧ t.numer < p) ∧
        g.Pairwise fun a b => OKind.drl.lt (b.vec names.length) (a.vec names.length)) ∧
      gs.Pairwise (fun a b => ∀ s ∈ a.head?, ∀ t ∈ b.head?, OKind.drl.lt (s.vec names.length) (t.vec names.length)) ∧
      IsReducedGroebner OKind.drl.mo J { q | ∃ g ∈ gs, q = Text.poly p names.length g }) := by
  intro hF
  obtain ⟨-, F, q, C, e, G, h1, h2, h3, h4, h5, h6, h7, h8, rfl⟩ := run_parts h hr
  obtain ⟨O, p', m, u, v⟩ := C
  simp only at h2 h3
  subst h2
  subst h3
  obtain ⟨J, k1, k2, k3, k4⟩ := C69_between_partial h1 h6
  simp only at k1 k2 k3 k4
  rw [h4, h5] at k1
  exact ⟨J, k1, fun hdeg => text_of_basis h.file.name (nev := 0) (List.length_pos_iff.mpr h.file.some) k2 k3 k4 (fun g hg => hdeg _ k2 _ ⟨g, hg, rfl⟩)⟩

/-- **C90**: what `msolve -S -g 1` writes is, after comments, the list of the leading monomials of such a basis `bs`; as in C87 the monomial 1 is not written.

Partial: the ideal need not be the saturation. -/
theorem C90_leads_partial {f : File} {names : List (List Char)} {p : ℕ} {tss : List (List Text.Mon)} {ts : List Text.Mon} (h : InputOk f names p (tss ++ [ts]))
    {const : Bool} {out : List Char} (hr : Verif.EndToEndSat.Run 1 f.text const out) :
    have : Fact p.Prime := ⟨h.prime⟩
    ∃ J : Ideal (MvPolynomial (Fin names.length) (ZMod p)), Between (inputIdeal names.length p tss) (Text.poly p names.length ts) J ∧
      ((∀ B, IsReducedGroebner OKind.drl.mo J B → ∀ g ∈ B, g.totalDegree < 65536) → ∃ bs : List (MvPolynomial (Fin names.length) (ZMod p)),
      IsReducedGroebner OKind.drl.mo J { b | b ∈ bs } ∧
      (bs.Pairwise fun a b => OKind.drl.mo.toSyn (OKind.drl.mo.degree a) < OKind.drl.mo.toSyn (OKind.drl.mo.degree b)) ∧
      (J ≠ ⊤ → ∃ tl : List Text.Mon,
        out = Text.leadHeaderMod p 0 names bs.length ++ '[' :: List.intercalate ",\n".toList (tl.map fun t => Text.line names [t]) ++ "]:\n".toList ∧
        List.Forall₂ (fun b t => t.Ok names ∧ t.numer = 1 ∧ t.denom = 1 ∧ Finsupp.equivFunOnFinite.symm (t.vec names.length) = OKind.drl.mo.degree b) bs tl) ∧
      (J = ⊤ → out = Text.leadHeaderMod p 0 names 1 ++ "[]:\n".toList)) := by
  intro hF
  obtain ⟨-, F, q, C, e, G, h1, h2, h3, h4, h5, h6, h7, h8, rfl⟩ := run_parts h hr
  obtain ⟨O, p', m, u, v⟩ := C
  simp only at h2 h3
  subst h2
  subst h3
  obtain ⟨J, k1, k2, k3, k4⟩ := C69_between_partial h1 h6
  simp only at k1 k2 k3 k4
  rw [h4, h5] at k1
  exact ⟨J, k1, fun hdeg => EndToEndLm.text_of_leads (List.length_pos_iff.mpr h.file.some) h7 k2 k3 k4 hdeg⟩

/-- **C90**: if the message `basis is constant` appears, the saturation is the whole ring. -/
theorem C90_constant {f : File} {names : List (List Char)} {p : ℕ} {tss : List (List Text.Mon)} {ts : List Text.Mon} (h : InputOk f names p (tss ++ [ts])) {g : ℤ}
    {out : List Char} (hr : Verif.EndToEndSat.Run g f.text true out) :
    have : Fact p.Prime := ⟨h.prime⟩
    IsSaturation (inputIdeal names.length p tss) (Text.poly p names.length ts) ⊤ := by
  have hF : Fact p.Prime := ⟨h.prime⟩
  obtain ⟨-, F, q, C, e, G, h1, h2, h3, h4, h5, h6, h7, h8, rfl⟩ := run_parts h hr
  obtain ⟨O, p', m, u, v⟩ := C
  simp only at h2 h3
  subst h2
  subst h3
  have he : e = .const := by
    cases e with
    | const => rfl
    | pairs => cases h8
    | test g => cases h8
  subst he
  have := (C69_constant h1 h6).2
  rwa [h4, h5] at this

/-- **C90** (finding): without `-g` nothing is written. -/
theorem C90_silent {input : List Char} {const : Bool} {out : List Char} (hr : Verif.EndToEndSat.Run 0 input const out) : out = [] := by
  obtain ⟨names', p', ps, im, ng, F0, F, q, C, e, G, -, -, -, -, -, -, -, -, -, -, -, -, -, rfl⟩ := hr
  rfl

/-- **C90**: primes with at most 16 bits are refused. -/
theorem C90_small {f : File} {names : List (List Char)} {p : ℕ} {tss : List (List Text.Mon)} {ts : List Text.Mon} (h : InputOk f names p (tss ++ [ts])) {g : ℤ}
    {const : Bool} {out : List Char} (hr : Verif.EndToEndSat.Run g f.text const out) : 2 ^ 16 < p := (run_parts h hr).1

/-! ### The saturation is not reached -/

theorem one_import (e : List ℤ) (u : Fin 2 → ℕ) (h1 : (importTerm 2 0 65537 (1, e)).1 = 1)
    (hu : monOf 2 0 (importTerm 2 0 65537 (1, e)).2 = u) : ImportPoly 2 0 65537 [(1, e)] [(u, 1)] ∧ ImportTbr 2 0 65537 [(1, e)] [(u, 1)] := by
  obtain ⟨cf, hcf, hs⟩ := sortTerms_spec 1 (fun i => (([(1, e)] : List (ℤ × List ℤ)).map (importTerm 2 0 65537)).getD i (0, fun _ => 0)) id
    (fun _ h => h) fun _ _ _ _ h => h
  have h0 : cf 0 = importTerm 2 0 65537 (1, e) := by
    rw [hs 0 (by norm_num)]
    rfl
  have hsort : SortPerm 2 0 (([(1, e)] : List (ℤ × List ℤ)).map (importTerm 2 0 65537)) id :=
    ⟨fun _ h => h, fun _ _ _ _ h => h, fun i j hij hj => by simp only [List.map_cons, List.map_nil, List.length_cons, List.length_nil] at hj; omega⟩
  have hc : (cf 0).1 = 1 := by rw [h0, h1]
  have hm : monOf 2 0 (cf 0).2 = u := by rw [h0, hu]
  refine ⟨⟨id, cf, [1], [1], hsort, hcf, ?_, by decide +kernel, ?_⟩, ⟨id, cf, hsort, hcf, ?_⟩⟩
  · simp only [List.length_cons, List.length_nil, Nat.zero_add, List.range_one, List.map_cons, List.map_nil, hc]
    decide +kernel
  · simp [hm]
  · simp [hm, hc]

theorem np_sym : symLoop npF [0] (finSym npF [0]).ms.length 2 0 (finSym npF [0]) = some ⟨[![1, 1]], [![1, 1]], [], [⟨0, 0⟩]⟩ := by
  have h (X : Verif.F4.Sym 2 → List (Fin 2 → ℕ)) (l : List (Fin 2 → ℕ))
      (e : (symLoop npF [0] (finSym npF [0]).ms.length 2 0 (finSym npF [0])).map X = some l) :
      ∀ s, symLoop npF [0] (finSym npF [0]).ms.length 2 0 (finSym npF [0]) = some s → X s = l := by
    intro s hs
    rw [hs] at e
    exact Option.some.inj e
  have h1 := h (·.ms) [![1, 1]] (by decide +kernel)
  have h2 := h (·.mark) [![1, 1]] (by decide +kernel)
  have h3 := h (fun s => s.rr.map (·.mul)) [] (by decide +kernel)
  have h4 := h (fun s => s.tr.map (·.mul)) [![0, 0]] (by decide +kernel)
  have h5 := h (fun s => s.tr.map fun r => ![r.gen, 0]) [![0, 0]] (by decide +kernel)
  have h6 : (symLoop npF [0] (finSym npF [0]).ms.length 2 0 (finSym npF [0])).isSome = true := by decide +kernel
  obtain ⟨⟨a, b, c, d⟩, hs⟩ := Option.isSome_iff_exists.mp h6
  have h1 := h1 _ hs
  have h2 := h2 _ hs
  have h3 := h3 _ hs
  have h4 := h4 _ hs
  have h5 := h5 _ hs
  simp only [List.map_eq_nil_iff, List.map_eq_singleton_iff] at h1 h2 h3 h4 h5
  obtain ⟨⟨r1, r2⟩, rfl, h4⟩ := h4
  obtain ⟨⟨r1', r2'⟩, hr, h5⟩ := h5
  obtain ⟨rfl, rfl⟩ := by simpa using hr
  have h5 : r2 = 0 := congrFun h5 0
  simp only at h4
  have h4 : r1 = 0 := h4.trans (by decide)
  rw [hs, h1, h2, h3, h4, h5]

theorem np_lmps : finalLmps (start (stdCfg .drl 65537 1) npF) = some [0] := by
  show finalLmps ⟨npF, Pairs.updateBasis 0 true id (elsOf 0 npF) 1 init0, false⟩ = _
  decide +kernel

theorem np_la : finLoop (par31 65537 0 1) (finPivs npF [![1, 1]] []) ([⟨0, 0⟩].map fun r => (leadCol npF [![1, 1]] r, convRow [![1, 1]] (rowPoly npF r))) =
    some [[(0, 1)]] := by decide +kernel

theorem np_final : Final (stdCfg .drl 65537 1) (start (stdCfg .drl 65537 1) npF) npF := by
  refine ⟨[0], np_lmps, 2, _, [![1, 1]], [], [⟨0, 0⟩], _, [[(0, 1)]], by decide, np_sym, ⟨.refl _, List.pairwise_singleton _ _⟩,
    .refl _, .refl _, by simp, .inl rfl, np_la, ?_⟩
  decide +kernel

/-- **C90**: the full claim is false: for the file with `x*y` and `y` the text `x*y` is written, although the saturation of the ideal of `x*y` by `y` contains `x`. -/
theorem C90_not_saturated : Verif.EndToEndSat.Run 2 "x,y\n65537\nx*y,\ny\n".toList false (header twoNames 65537 0 1 ++ "[1*x^1*y^1]:\n".toList) ∧
    InSat (Ideal.span {(MvPolynomial.X 0 * MvPolynomial.X 1 : MvPolynomial (Fin 2) (ZMod 65537))}) (MvPolynomial.X 1) (MvPolynomial.X 0) ∧
    (MvPolynomial.X 0 : MvPolynomial (Fin 2) (ZMod 65537)) ∉ Ideal.span {(MvPolynomial.X 0 * MvPolynomial.X 1 : MvPolynomial (Fin 2) (ZMod 65537))} := by
  refine ⟨?_, ?_, ?_⟩
  · have hC := stdCfg_ok (n := 2) .drl (p := 65537) prime65537 (by norm_num) Nat.one_pos
    refine ⟨twoNames, 65537, [[(1, [1, 1])], [(1, [0, 1])]], [[(1, [1, 1])]], 1, npF, npF, npf, stdCfg .drl 65537 1, .pairs, npF,
      by decide +kernel, by decide +kernel, by decide, by decide +kernel, .cons (one_import _ _ (by decide +kernel) (by decide +kernel)).1 .nil, .refl _,
      .cons (one_import _ _ (by decide +kernel) (by decide +kernel)).2 .nil, rfl, rfl,
      ⟨hC.mnsel, hC.upd, hC.sel, hC.sorted⟩, ⟨_, .last _ _ _ (.stop (np_ps 1)), np_final⟩, List.cons_ne_nil _ _, rfl, ?_⟩
    decide +kernel
  · refine ⟨1, ?_⟩
    rw [pow_one]
    exact Ideal.subset_span (by simp [mul_comm])
  · rw [Ideal.mem_span_singleton]
    rintro ⟨q, hq⟩
    have := congrArg (MvPolynomial.eval (![1, 0] : Fin 2 → ZMod 65537)) hq
    simp at this

end EndToEndSat
end Verif.Props
