import Verif.Props.Solve
import Verif.Props.Param

namespace Verif.Props
namespace Solve

open Verif.F4 Verif.Pairs Verif.Spec Verif.MulMatrix Verif.Fglm Verif.BM Verif.Hankel Verif.LinForms Verif.VarOrder Verif.Output Verif.Solve
open Verif.Groebner Verif.ExportF4 Verif.Spec.Solutions
open Verif.Spec.Output (readOutput Tree)
open Verif.Spec.Text (File)
open Verif.Parse (ffPoly)
open Verif.Props.EndToEnd (InputOk inputIdeal read_file)
open MvPolynomial

variable {n : ℕ}

theorem basis_exists {p : ℕ} (hp : p.Prime) (hp2 : p < 2 ^ 31) (hn : 0 < n) {fs : List (List (ℤ × (Fin n → ℕ)))} (h : ArraysOk p fs) :
    ∃ G : List (Poly n), Basis 0 0 p true (fs.map rawPoly) G := by
  obtain ⟨c, o, r, gens, G, h1, h2, -⟩ := ExportF4.C77_exists_partial (mo := 0) (nev := 0) true (fun _ => by decide) hp hp2 hn h
  rw [readGens_of fs] at h1
  obtain rfl := Option.some.inj h1
  exact ⟨G, h2⟩

theorem nf_exists {p : ℕ} (hp : p.Prime) (hp2 : p < 2 ^ 31) {G : List (Poly n)} (hok : ∀ f ∈ G, PolyOk .drl p f) :
    ∃ nf : List (Poly n) → List (Option (Poly n)),
      ∀ tbr, (∀ f ∈ tbr, InPoly p f) → NfRun .drl p G (List.range G.length) tbr (nf tbr) := by
  have hex : ∀ tbr, (∀ f ∈ tbr, InPoly p f) → ∃ N, NfRun .drl p G (List.range G.length) tbr N := by
    intro tbr htbr
    exact (C59_terminates .drl p hp hp2 G hok (List.range G.length) (fun k hk => List.mem_range.mp hk) tbr htbr).2.1
  classical
  refine ⟨fun tbr => if h : ∀ f ∈ tbr, InPoly p f then (hex tbr h).choose else [], fun tbr htbr => ?_⟩
  simp only [dif_pos htbr]
  exact (hex tbr htbr).choose_spec

/-- If neither of the first two tests succeeds then the ideal is proper and the quotient is finite. -/
theorem third_case {p : ℕ} [hp : Fact p.Prime] {I : Ideal (MvPolynomial (Fin n) (ZMod p))} (hn : 0 < n)
    {G : List (Poly n)} (hG : IsReducedGroebner OKind.drl.mo I { g | ∃ f ∈ G, g = toMv p f }) (hok : ∀ f ∈ G, PolyOk .drl p f)
    (hsort : G.Pairwise fun a b => OKind.drl.lt (F4.lead a) (F4.lead b))
    (h1 : ¬ (G.length = 1 ∧ F4.lead (G.getD 0 []) = 0)) (h2 : Hilbert.hasDimensionZero (G.map F4.lead) = true) :
    I ≠ ⊤ ∧ Module.Finite (ZMod p) (MvPolynomial (Fin n) (ZMod p) ⧸ I) := by
  have hR := redBasis_of hG hok hsort
  have hzero : ∀ g ∈ G, F4.lead g = 0 → G.length = 1 ∧ F4.lead (G.getD 0 []) = 0 := by
    intro g hg h0
    have hall : ∀ f ∈ G, f = g := by
      intro f hf
      by_contra hne
      obtain ⟨t, ht⟩ := (hok f hf).head
      refine hR.red f hf g hg hne (F4.lead f, 1) (by rw [ht]; exact List.mem_cons_self) ?_
      rw [h0]
      exact fun i => Nat.zero_le _
    have hl : G.length = 1 := by
      rcases G with _ | ⟨a, _ | ⟨b, G⟩⟩
      · simp at hg
      · rfl
      · have ha := hall a (by simp)
        have hb := hall b (by simp)
        have := (List.pairwise_cons.mp hR.sorted).1 b (by simp)
        rw [ha, hb] at this
        exact absurd this (OKind.drl.adm.irrefl _)
    refine ⟨hl, ?_⟩
    rw [hall (G.getD 0 []) (getD_mem [] (by omega)), h0]
  constructor
  · intro ht
    obtain ⟨g, ⟨g', hg', rfl⟩, -, hle⟩ := hG.1.2 1 (by rw [ht]; trivial) one_ne_zero
    rw [(hok g' hg').degree] at hle
    have h0 : OKind.drl.mo.degree (1 : MvPolynomial (Fin n) (ZMod p)) = 0 := by
      rw [← C_1]
      exact MonomialOrder.degree_C _
    rw [h0] at hle
    exact h1 (hzero g' hg' (funext fun i => Nat.le_zero.mp (hle i)))
  · have hfin := (C23_dimension_zero hn (G.map F4.lead) ?_ ?_).mp h2
    · obtain ⟨D, hD⟩ := (C24_termination hn (G.map F4.lead)).1 hfin
      obtain ⟨lmb, hb⟩ := hD D le_rfl
      obtain ⟨B, -⟩ := C60_basis hn hG hok hb
      exact Module.Finite.of_basis B
    · rw [List.pairwise_map]
      refine List.Pairwise.imp_of_mem ?_ hR.sorted
      intro f g hf hg hlt
      have hne : f ≠ g := by
        rintro rfl
        exact OKind.drl.adm.irrefl _ hlt
      obtain ⟨t, ht⟩ := (hok f hf).head
      obtain ⟨t', ht'⟩ := (hok g hg).head
      exact ⟨hR.red g hg f hf hne.symm (F4.lead g, 1) (by rw [ht']; exact List.mem_cons_self),
        hR.red f hf g hg hne (F4.lead f, 1) (by rw [ht]; exact List.mem_cons_self)⟩
    · intro l hl
      obtain ⟨f, hf, rfl⟩ := List.mem_map.mp hl
      by_contra hcon
      push Not at hcon
      exact h1 (hzero f hf (funext hcon))

theorem basis_reduced {p : ℕ} [hp : Fact p.Prime] (hp2 : p < 2 ^ 31) {fs : List (List (ℤ × (Fin n → ℕ)))} (h : ArraysOk p fs)
    {G : List (Poly n)} (hB : Basis 0 0 p true (fs.map rawPoly) G) :
    0 < n ∧ IsReducedGroebner OKind.drl.mo (ExportF4.arrayIdeal p fs) { g | ∃ f ∈ G, g = toMv p f } ∧ (∀ f ∈ G, PolyOk .drl p f) ∧
      G.Pairwise fun a b => OKind.drl.lt (F4.lead a) (F4.lead b) := by
  obtain ⟨hn, F, Cf, s, hF, hI, hC, hord, hpp, hs, hd, hfin⟩ := ExportF4.basis_parts (fun _ => by decide) hp.out hp2 h hB
  have hord : Cf.ord = .drl := by rw [hord]; rfl
  rw [if_pos rfl] at hfin
  rw [← hI]
  clear hI hB h hp2
  subst hpp
  have hF : ∀ f ∈ F, PolyOk Cf.ord Cf.p f := by rw [hord]; exact hF
  obtain ⟨hG, hok, hsort⟩ := (C44_reduced hC hF).2 s G hs hd hfin
  rw [hord] at hG hok hsort
  exact ⟨hn, hG, hok, hsort⟩

theorem readGens_gensOf (names : List (List Char)) (p : ℕ) (tss : List (List Text.Mon)) :
    readGens names.length (gensOf names p (tss.map (ffPoly names.length p))).exps (gensOf names p (tss.map (ffPoly names.length p))).cfs 0
      (gensOf names p (tss.map (ffPoly names.length p))).lens = some ((tss.map (raw0 names.length p)).map rawPoly) := by
  have := readGens_of (tss.map (raw0 names.length p))
  rwa [arrays_raw0] at this

/-- A run without restarts. -/
theorem run_start {f : File} {names : List (List Char)} {p : ℕ} [hF : Fact p.Prime] {tss : List (List Text.Mon)} (h : InputOk f names p tss)
    {us : ℤ} {gp : ℕ} (handling : ℕ) {G : List (Poly names.length)} (hB : Basis 0 0 p true ((tss.map (raw0 names.length p)).map rawPoly) G)
    {a : Att (ZMod p)} (ha : Outcome p us true G a) {out : List Char} (hpr : Prints gp (gensOf names p (tss.map (ffPoly names.length p))) a out) :
    Run handling us gp f.text out :=
  ⟨names, p, _, hF, _, true, [], a, read_file h, .start, ⟨_, G, readGens_gensOf names p tss, hB, ha⟩, hpr⟩

theorem prints_positive (p : ℕ) [Fact p.Prime] (gp : ℕ) (g : Gens) : ∃ out, Prints (p := p) gp g .positive out := by
  have key : ∀ D, ∃ out, displayOutput g 1 (-1) gp D [] = some out := fun D => by
    simp [displayOutput]
  obtain ⟨out, h⟩ := key ⟨[], [], none, [], [], none⟩
  exact ⟨out, _, h⟩

end Solve

open Verif.Spec Verif.Solve Verif.Spec.Solutions
open Verif.Spec.Output (readOutput Tree)
open Verif.Spec.Text (File)
open Verif.Props.EndToEnd (InputOk inputIdeal)
open MvPolynomial

/-- C78: for an inconsistent system and for one with a quotient of infinite dimension there is a run with an output; no restart occurs. -/
theorem C78_exists {f : File} {names : List (List Char)} {p : ℕ} {tss : List (List Text.Mon)} (h : InputOk f names p tss)
    (hI : inputIdeal names.length p tss = ⊤ ∨
      ¬ Module.Finite (ZMod p) (MvPolynomial (Fin names.length) (ZMod p) ⧸ inputIdeal names.length p tss))
    (handling : ℕ) (us : ℤ) (gp : ℕ) : ∃ out, Run handling us gp f.text out := by
  have hF : Fact p.Prime := ⟨h.prime⟩
  have hn : 0 < names.length := List.length_pos_iff.mpr h.file.some
  obtain ⟨G, hB⟩ := Solve.basis_exists h.prime h.file.small hn (Solve.raw0_ok h)
  obtain ⟨-, hG, hok, hsort⟩ := Solve.basis_reduced h.file.small (Solve.raw0_ok h) hB
  rw [Solve.ideal_raw0] at hG
  by_cases h1 : G.length = 1 ∧ F4.lead (G.getD 0 []) = 0
  · exact ⟨_, Solve.run_start h handling (us := us) (gp := gp) hB (a := .empty) (by rw [Outcome, if_pos h1]) ⟨⟨[], [], none, [], [], none⟩, rfl⟩⟩
  · cases h2 : Hilbert.hasDimensionZero (G.map F4.lead) with
    | false =>
      obtain ⟨out, hpr⟩ := Solve.prints_positive p gp (gensOf names p (tss.map (Parse.ffPoly names.length p)))
      exact ⟨out, Solve.run_start h handling hB (by rw [Outcome, if_neg h1, if_pos h2]) hpr⟩
    | true =>
      obtain ⟨a1, a2⟩ := Solve.third_case hn hG hok hsort h1 h2
      rcases hI with hI | hI
      · exact absurd hI a1
      · exact absurd a2 hI

/-! ### Examples -/

namespace Solve

open Verif.F4 Verif.Pairs Verif.MulMatrix Verif.Fglm Verif.BM Verif.Hankel Verif.LinForms Verif.VarOrder Verif.Output
open Verif.Groebner Verif.ExportF4
open Verif.Parse (ffPoly)
open Verif.Props.EndToEnd (twoNames)

/-- `y^2-1` and `x-y`. -/
def sxTerms : List (List Text.Mon) :=
  [[⟨false, none, [⟨1, some ['2']⟩]⟩, ⟨true, some ⟨['1'], none⟩, []⟩],
   [⟨false, none, [⟨0, none⟩]⟩, ⟨true, none, [⟨1, none⟩]⟩]]
def sxFile : File := ⟨twoNames, ['1', '0', '1'], ["y^2 - 1".toList, "x-y".toList], ['\n']⟩

example : sxFile.text = "x,y\n101\ny^2 - 1,\nx-y\n".toList := by decide +kernel

theorem sxFile_ok : InputOk sxFile twoNames 101 sxTerms where
  file := by
    refine ⟨?_, by decide, by decide, ?_, by decide, ⟨['1', '0', '1'], [], rfl, ⟨by decide, by decide⟩, by decide, by simp⟩, by decide, by decide, ?_,
      by decide, by decide, ?_, by unfold Text.Fits; decide +kernel⟩
    · have h : ∀ nm ∈ twoNames, nm ≠ [] ∧ (∀ c ∈ nm.head?, c.isDigit = false) ∧
          ∀ c ∈ nm, c ∉ ['*', '^', '+', '-', ','] ∧ Text.isSpace c = false := by decide
      exact fun nm hm => ⟨(h nm hm).1, fun c l hcl => (h nm hm).2.1 c (by rw [hcl]; rfl), (h nm hm).2.2⟩
    · exact .cons ⟨[], [], rfl, by simp, by simp⟩ (.cons ⟨[], [], rfl, by simp, by simp⟩ .nil)
    · exact .cons ⟨by decide +kernel, by decide +kernel, by decide +kernel⟩ (.cons ⟨by decide +kernel, by decide +kernel, by decide +kernel⟩ .nil)
    · have h : ∀ ts ∈ sxTerms, ∀ t ∈ ts, (t.num ≠ none ∨ t.fs ≠ []) ∧
          (∀ a ∈ t.num, (a.n ≠ [] ∧ ∀ c ∈ a.n, c.isDigit = true) ∧ a.d = none) ∧ (∀ f ∈ t.fs, f.v < twoNames.length) ∧
          (∀ f ∈ t.fs, ∀ ds ∈ f.e, (ds ≠ [] ∧ ∀ c ∈ ds, c.isDigit = true) ∧ Text.dec ds < 2 ^ 31) ∧ (t.fs.map (·.v)).Nodup := by
        decide +kernel
      intro ts hts t ht
      obtain ⟨h1, h2, h3, h4, h5⟩ := h ts hts t ht
      exact ⟨h1, fun a ha => ⟨(h2 a ha).1, fun d hd => absurd hd (by rw [(h2 a ha).2]; simp)⟩, h3, h4, h5⟩
  prime := by norm_num
  first := by
    have h : ∀ ts ∈ sxTerms, ∀ t ∈ ts.head?, ∀ a ∈ t.num, a.d = none ∧ Text.dec a.n < 2 ^ 31 ∧ (t.neg = true → Text.dec a.n ≠ 0) := by
      decide +kernel
    exact h
  inner := by
    have h : ∀ ts ∈ sxTerms, ∀ t ∈ ts.tail, ∀ a ∈ t.num, a.d = none ∧ Text.dec a.n < 2 ^ 63 - 1 ∧ Text.dec a.n ≠ 0 := by
      decide +kernel
    exact h
  expanded := by
    have h : ∀ ts ∈ sxTerms, (∀ t ∈ ts, ¬ ((101 : ℕ) : ℤ) ∣ t.numer) ∧ (ts.map (Text.Mon.vec 2)).Nodup ∧
        ∀ t ∈ ts, ∑ i, t.vec 2 i < 65536 := by decide +kernel
    exact fun ts hts => ⟨(h ts hts).1, (h ts hts).2.1, (h ts hts).2.2⟩

theorem sx_plain : Plain twoNames 101 := ⟨by decide, by decide, by decide⟩

theorem sx_poly : { q | ∃ ts ∈ sxTerms, q = Text.poly 101 2 ts } = { q | ∃ f ∈ exS, q = toMv 101 f } := by
  have h : sxTerms.map (Text.poly 101 2) = exS.map (toMv 101) := by
    have e : ∀ (t : Text.Mon) (u : Fin 2 → ℕ) (c : ℕ), t.vec 2 = u → ((t.numer : ℤ) : ZMod 101) = ((c : ℕ) : ZMod 101) →
        t.poly 101 2 = MvPolynomial.monomial (F4.fs u) ((c : ℕ) : ZMod 101) := by
      rintro t u c rfl h
      unfold Text.Mon.poly
      rw [h]; rfl
    simp only [sxTerms, exS, List.map_cons, List.map_nil, Text.poly, toMv]
    rw [e _ ![0, 2] 1 (by decide +kernel) (by decide +kernel), e _ ![0, 0] 100 (by decide +kernel) (by decide +kernel),
      e _ ![1, 0] 1 (by decide +kernel) (by decide +kernel), e _ ![0, 1] 100 (by decide +kernel) (by decide +kernel)]
  ext q
  have h1 : (∃ ts ∈ sxTerms, q = Text.poly 101 2 ts) ↔ q ∈ sxTerms.map (Text.poly 101 2) := by
    rw [List.mem_map]; exact exists_congr fun _ => and_congr_right' eq_comm
  have h2 : (∃ ts ∈ exS, q = toMv 101 ts) ↔ q ∈ exS.map (toMv 101) := by
    rw [List.mem_map]; exact exists_congr fun _ => and_congr_right' eq_comm
  exact h1.trans (h ▸ h2.symm)

/-- Every result of F4 for this file. -/
theorem sx_basis {G : List (Poly 2)} (hB : Basis 0 0 101 true ((sxTerms.map (raw0 2 101)).map rawPoly) G) : G = exSG := by
  have hp : Fact (Nat.Prime 101) := ⟨by norm_num⟩
  obtain ⟨-, h1, h2, h3⟩ := basis_reduced (n := 2) (by norm_num) (raw0_ok sxFile_ok) hB
  have h1 : IsReducedGroebner OKind.drl.mo (ExportF4.arrayIdeal 101 (sxTerms.map (raw0 2 101))) { g | ∃ f ∈ G, g = toMv 101 f } := h1
  rw [ideal_raw0, inputIdeal, sx_poly] at h1
  have hset := Groebner.reduced_unique h1 exSG_groebner
  have hadm := OKind.drl.adm (n := 2)
  have hnd : ∀ {l : List (Poly 2)}, l.Pairwise (fun a b => OKind.drl.lt (F4.lead a) (F4.lead b)) → l.Nodup := by
    intro l hl
    refine List.Pairwise.imp ?_ hl
    rintro a b hab rfl
    exact hadm.irrefl _ hab
  have hperm : G.Perm exSG := (List.perm_ext_iff_of_nodup (hnd h3) (hnd exSG_sorted)).mpr fun f => by
    constructor
    · intro hf
      obtain ⟨g, hg, he⟩ := hset.subset ⟨f, hf, rfl⟩
      rw [toMv_injOn (h2 f hf) (exSG_ok g hg) he]
      exact hg
    · intro hf
      obtain ⟨g, hg, he⟩ := hset.symm.subset ⟨f, hf, rfl⟩
      rw [toMv_injOn (exSG_ok f hf) (h2 g hg) he]
      exact hg
  exact hperm.eq_of_pairwise (le := fun a b => OKind.drl.lt (F4.lead a) (F4.lead b))
    (fun a b _ _ hab hba => absurd (hadm.trans _ _ _ hab hba) (hadm.irrefl _)) h3 exSG_sorted

theorem repr_exists {p : ℕ} [NeZero p] (f : Polynomial (ZMod p)) : ∃ l, Repr f l ∧ l.length = f.natDegree + 1 := by
  refine ⟨(List.range (f.natDegree + 1)).map fun i => (f.coeff i).val, ⟨?_, fun i => ?_⟩, by simp⟩
  · intro c hc
    obtain ⟨i, -, rfl⟩ := List.mem_map.mp hc
    exact ZMod.val_lt _
  · rcases Nat.lt_or_ge i (f.natDegree + 1) with hi | hi
    · rw [List.getD_eq_getElem _ _ (by simpa using hi)]
      simp
    · rw [List.getD_eq_default _ _ (by simpa using hi), Polynomial.coeff_eq_zero_of_natDegree_lt (by omega)]
      simp

theorem shown_exists {p : ℕ} [NeZero p] (w : Polynomial (ZMod p)) (cs : ℕ → Polynomial (ZMod p)) (nv : ℕ) : ∃ D, Shown w cs nv D := by
  obtain ⟨l, hl, hlen⟩ := repr_exists w
  choose c hc using fun k => repr_exists (cs k)
  refine ⟨⟨[], [], none, l, [1], some ((List.range (nv - 1)).map c)⟩, hl, hlen, rfl, _, rfl, by simp, fun k hk => ?_⟩
  rw [List.getD_eq_getElem _ _ (by simpa using hk)]
  simpa using (hc k).1

theorem fglm_shape {K : Type*} [Field K] {nlins : ℕ} {linvars : ℕ → ℕ} {lineqs : ℕ → K} {squ : ℕ → ℕ} {res resSq : ℕ → ℕ → K} {inv : Hankel.Inv K}
    {V elim : Polynomial K} {xg : Polynomial K → Polynomial K → Polynomial K × Polynomial K × Polynomial K} {lam : ℕ → K} {nv dquot : ℕ} {chk : Bool}
    {r : Polynomial K × (ℕ → Polynomial K)} (h : elim.natDegree = dquot) (hr : params inv dquot res nlins linvars lineqs nv elim = some r) :
    fglm nlins linvars lineqs squ res resSq inv V elim xg lam nv dquot chk = some (.ok dquot r.1 r.2) := by
  rw [fglm, if_pos h, hr]
  rfl

theorem sx_outcome_of {us : ℤ} (hus : ∀ nf, MulMatrix.build 101 (1 : Fin 2) us exSG exSB nf = .ok exSM) : have : Fact (Nat.Prime 101) := ⟨by norm_num⟩
    ∃ w cs, Outcome 101 us true exSG (.ok 2 w cs) ∧ w.natDegree = 2 := by
  intro hp
  obtain ⟨hg, hhg⟩ := hgcd_exists (K := ZMod 101)
  obtain ⟨xg, hxg⟩ := xgcdOk_exists (ZMod 101)
  obtain ⟨fuel, hb⟩ := exSB_basis
  obtain ⟨nf, hnf⟩ := nf_exists (p := 101) (by norm_num) (by norm_num) exSG_ok
  obtain ⟨r1, r2, Z1, Z2, r3⟩ := exKV_run exs6.1 exs6.2 hhg
  rw [← exSM_pts] at r1 r2 r3
  have hC := stdCfg_ok (n := 2) .drl (p := 101) (mnsel := 1) (by norm_num) (by norm_num) (by norm_num)
  obtain ⟨s, G, hs, hd, hfin⟩ := (C44_reduced hC exS_ok).1 (by decide)
  obtain rfl := exS_final hs hd hfin
  obtain ⟨k1, k2⟩ := C61_modular hC rfl exS_ok hs hd hfin hb (by simp [exSB]) hnf (last := 1) rfl us (hus nf) (fun _ => 0) exSv (fun _ => 0)
    hhg r1 r2
  obtain ⟨r, hr⟩ := Option.ne_none_iff_exists'.mp (fun hc => by
    have := (k1.mp hc).2
    exact absurd (this.symm.trans r3) (by simp))
  refine ⟨r.1, r.2, ?_, (k2 r hr).2.2.1⟩
  rw [Outcome, if_neg (by decide), if_neg (by decide)]
  refine ⟨fuel, exSB, nf, 1, hb, hnf, rfl, Or.inr ⟨exSM, hus nf, by decide, by decide, fun _ => 0, exSv, fun _ => 0, hg, _, xg, fun _ => 1,
    hhg, r1, hxg, by simp, ?_⟩⟩
  exact fglm_shape r2 hr

theorem sx_outcome : have : Fact (Nat.Prime 101) := ⟨by norm_num⟩
    ∃ w cs, Outcome 101 3 true exSG (.ok 2 w cs) ∧ w.natDegree = 2 := sx_outcome_of exSM_build

/-- All hypotheses of C78 are met by a file and there is a run for it that prints a parametrization of degree 2, the dimension; by `C78_solutions_partial` it
describes exactly the solutions. -/
example : ∃ out, Run 2 3 0 sxFile.text out ∧ ∃ (pnames : List (List Char)) (form : List ℚ) (elim denom : List ℤ) (coords : List (List ℤ)),
    readOutput out = some (.list [.num 0, modParam 101 2 2 pnames form elim denom coords]) ∧ elim.length = (2 : ℤ) + 1 ∧
    ∀ (L : Type) [Field L] [Algebra (ZMod 101) L] (z : Fin twoNames.length → L),
      (∀ ts ∈ sxTerms, aeval z (Text.poly 101 twoNames.length ts) = 0) ↔ Described twoNames pnames elim denom coords z := by
  have hp : Fact (Nat.Prime 101) := ⟨by norm_num⟩
  obtain ⟨G, hB⟩ := basis_exists (n := 2) (p := 101) (by norm_num) (by norm_num) (by norm_num) (raw0_ok sxFile_ok)
  obtain rfl := sx_basis hB
  obtain ⟨w, cs, ho, hw⟩ := sx_outcome
  obtain ⟨D, hD⟩ := shown_exists w cs 2
  obtain ⟨out, h1, h2⟩ := C71_mod (g := gensOf twoNames 101 (sxTerms.map (ffPoly 2 101))) (by decide) (dquot := 2) (by norm_num) 0 (D := D)
    ⟨by decide, by decide, fun h => absurd h (by decide)⟩ (nums := [0, 1]) (den := 1) rfl (by decide) []
  have hrun : Run 2 3 0 sxFile.text out := run_start sxFile_ok 2 hB ho ⟨D, hD, h1⟩
  refine ⟨out, hrun, _, _, _, _, _, h2, ?_, ?_⟩
  · rw [List.length_map, hD.len, hw]; rfl
  · exact (C78_solutions_partial sxFile_ok sx_plain hrun h2).2.2.2.2.2.2.2.2 (by rw [List.length_map, hD.len, hw]; rfl)

end Solve

end Verif.Props
