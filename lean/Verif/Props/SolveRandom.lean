import Verif.SolveRandom
import Verif.Props.SolveExists

namespace Verif.Props
namespace Solve

open Verif.F4 Verif.Pairs Verif.Spec Verif.MulMatrix Verif.Fglm Verif.BM Verif.Hankel Verif.LinForms Verif.VarOrder Verif.Output Verif.Solve
open Verif.Groebner Verif.ExportF4 Verif.Spec.Solutions
open Verif.Spec.Output (readOutput Tree)
open Verif.Spec.Text (File)
open Verif.Parse (ffPoly)
open Verif.Props.EndToEnd (InputOk inputIdeal read_file)
open MvPolynomial

variable {n : ℕ}

/-- What a parametrization says for most random vectors: its points are solutions, and the last coordinate of each solution is a root. -/
def GoodV (p : ℕ) [Fact p.Prime] (I : Ideal (MvPolynomial (Fin n) (ZMod p))) : Att (ZMod p) → Prop
  | .ok _ w cs => ∀ last : Fin n, last.val = n - 1 → ∀ (L : Type) [Field L] [Algebra (ZMod p) L] (z : Fin n → L),
      (Polynomial.aeval (z last) w = 0 → (∀ k : Fin n, k < last → z k = -Polynomial.aeval (z last) (cs k)) → ∀ g ∈ I, aeval z g = 0) ∧
      ((∀ g ∈ I, aeval z g = 0) → Polynomial.aeval (z last) w = 0)
  | _ => True

/-- The monomial basis is determined by the ideal. -/
theorem irr_ideal {p : ℕ} [hp : Fact p.Prime] {I : Ideal (MvPolynomial (Fin n) (ZMod p))} {G : List (Poly n)}
    (hG : IsReducedGroebner OKind.drl.mo I {g | ∃ f ∈ G, g = toMv p f}) (hok : ∀ f ∈ G, PolyOk .drl p f) (m : Mon n) :
    (∀ f ∈ G, ¬ F4.lead f ≤ m) ↔ ∀ g ∈ I, g ≠ 0 → OKind.drl.mo.degree g ≠ F4.fs m := by
  constructor
  · intro h g hg hg0 hd
    obtain ⟨g', ⟨f, hf, rfl⟩, _, hle⟩ := hG.1.2 g hg hg0
    rw [(hok f hf).degree, hd] at hle
    exact h f hf hle
  · intro h f hf hle
    have h1 : toMv p f ∈ I := hG.1.1 _ ⟨f, hf, rfl⟩
    have hlc : OKind.drl.mo.leadingCoeff (toMv p f) = 1 := (hok f hf).monic
    have hf0 : toMv p f ≠ 0 := by
      intro h0
      rw [h0, OKind.drl.mo.leadingCoeff_zero] at hlc
      exact zero_ne_one hlc
    have hm0 : (monomial (F4.fs (m - F4.lead f)) (1 : ZMod p)) ≠ 0 := by
      rw [Ne, monomial_eq_zero]
      exact one_ne_zero
    refine h (monomial (F4.fs (m - F4.lead f)) 1 * toMv p f) (I.mul_mem_left _ h1) (mul_ne_zero hm0 hf0) ?_
    classical
    rw [OKind.drl.mo.degree_mul hm0 hf0, (hok f hf).degree, OKind.drl.mo.degree_monomial, if_neg one_ne_zero]
    ext i
    exact Nat.sub_add_cancel (hle i)

theorem sorted_ext {l l' : List (Mon n)} (h : l.Pairwise OKind.drl.lt) (h' : l'.Pairwise OKind.drl.lt) (hm : ∀ m, m ∈ l ↔ m ∈ l') : l = l' := by
  have hnd : ∀ {l : List (Mon n)}, l.Pairwise OKind.drl.lt → l.Nodup := fun h => h.imp fun hab => by
    rintro rfl
    exact OKind.drl.adm.irrefl _ hab
  refine List.Perm.eq_of_pairwise (le := OKind.drl.lt) ?_ h h' ((List.perm_ext_iff_of_nodup (hnd h) (hnd h')).mpr hm)
  intro a b _ _ hab hba
  exact absurd (OKind.drl.adm.trans _ _ _ hab hba) (OKind.drl.adm.irrefl _)

theorem hom_root {K A L : Type*} [Field K] [CommRing A] [Algebra K A] [Field L] [Algebra K L] (φ : A →ₐ[K] L) {x : A} {w : Polynomial K} {N : ℕ}
    (h : minpoly K x ∣ w ^ N) : Polynomial.aeval (φ x) w = 0 := by
  obtain ⟨c, hc⟩ := h
  have h1 := congrArg (Polynomial.aeval (φ x)) hc
  rw [map_mul, Polynomial.aeval_algHom_apply φ x (minpoly K x), minpoly.aeval, map_zero, zero_mul, map_pow] at h1
  exact eq_zero_of_pow_eq_zero h1

/-- One computation with all squares verified: for all but a fraction of at most `(3 (n - 1) + 1) D / p` of the random vectors a parametrization has the points
it describes as solutions. -/
theorem outcome_random {p : ℕ} [hp : Fact p.Prime] (hp31 : p < 2 ^ 31) (hn : 1 ≤ n) {I : Ideal (MvPolynomial (Fin n) (ZMod p))} {D : ℕ}
    (hD : D = Module.finrank (ZMod p) (MvPolynomial (Fin n) (ZMod p) ⧸ I)) {lam : ℕ → ZMod p} (hlam : ∀ i, lam i ≠ 0) :
    ∃ S : Finset (Fin D → ZMod p), p * S.card ≤ (3 * (n - 1) + 1) * D * p ^ D ∧
      ∀ (G : List (Poly n)), IsReducedGroebner OKind.drl.mo I {g | ∃ f ∈ G, g = toMv p f} → (∀ f ∈ G, PolyOk .drl p f) →
        (G.Pairwise fun a b => OKind.drl.lt (F4.lead a) (F4.lead b)) → ∀ vecinit : ℕ → ZMod p, (fun i : Fin D => vecinit i) ∉ S →
        ∀ (us : ℤ) (a : Att (ZMod p)), OutcomeV p us true G vecinit lam a → GoodV p I a := by
  classical
  by_cases hex : I ≠ ⊤ ∧ ∃ (G : List (Poly n)) (fuel : ℕ) (lmb : List (Mon n)), IsReducedGroebner OKind.drl.mo I {g | ∃ f ∈ G, g = toMv p f} ∧
      (∀ f ∈ G, PolyOk .drl p f) ∧ Hilbert.monomialBasis (G.map F4.lead) fuel = .done lmb
  swap
  · refine ⟨∅, by simp, ?_⟩
    intro G hG hok hsort vecinit _ us a ho
    have hgood := outcome_gb hp31 hn hG hok hsort (outcomeV_iff.mpr ⟨vecinit, lam, hlam, ho⟩)
    cases a with
    | ok d w cs =>
      exfalso
      apply hex
      refine ⟨hgood.1.1, ?_⟩
      unfold OutcomeV at ho
      split_ifs at ho with h1 h2
      obtain ⟨fuel, lmb, nf, last, hb, -⟩ := ho
      exact ⟨G, fuel, lmb, hG, hok, hb⟩
    | _ => trivial
  obtain ⟨htop, G0, fuel0, lmb, hG0, hok0, hb0⟩ := hex
  obtain ⟨B, hB⟩ := C60_basis hn hG0 hok0 hb0
  obtain ⟨hsrt, hm0⟩ := irr_iff hn hb0
  have hrank : lmb.length = D := by
    rw [hD, Module.finrank_eq_card_basis B, Fintype.card_fin]
  have hone : ∀ f ∈ G0, F4.lead f ≠ 0 := by
    intro g hg h0
    apply htop
    have hm := hG0.1.1 (toMv p g) ⟨g, hg, rfl⟩
    have hg := hok0 g hg
    have : toMv p g = 1 := by
      have hdeg := hg.degree
      rw [h0] at hdeg
      have hz := OKind.drl.mo.degree_eq_zero_iff.mp (hdeg.trans (by ext i; rfl))
      rw [hz, hg.monic, C_1]
    rw [Ideal.eq_top_iff_one, ← this]
    exact hm
  have h0mem : 0 ∈ lmb := by
    rw [hm0]
    intro f hf hle
    exact hone f hf (funext fun i => Nat.le_zero.mp (hle i))
  have hne : lmb ≠ [] := List.ne_nil_of_mem h0mem
  have hmv : ∀ u : Mon n, ∏ j, Ideal.Quotient.mk I (X j) ^ u j = Ideal.Quotient.mk I (monomial (F4.fs u) 1) := mval_quot
  subst hrank
  obtain ⟨l0, hl0⟩ : ∃ l : Fin n, l.val = n - 1 := ⟨⟨n - 1, by omega⟩, rfl⟩
  obtain ⟨S, hS, hgood⟩ := fglm_random l0 (fun j => Ideal.Quotient.mk I (X j)) (List.length_pos_iff.mpr hne) B
    (fun i => by rw [hB, hmv]) lam
  rw [ZMod.card] at hS
  refine ⟨S, hS, ?_⟩
  intro G hG hok hsort vecinit hv us a ho
  have hR := redBasis_of hG hok hsort
  have hgood0 := (outcome_gb hp31 hn hG hok hsort (outcomeV_iff.mpr ⟨vecinit, lam, hlam, ho⟩)).1
  cases a with
  | ok d w cs =>
    obtain ⟨-, -, -, -, -, -, g7, -⟩ := hgood0
    by_cases hwd : w.natDegree = d
    · obtain ⟨-, g8⟩ := g7 hwd
      intro last hlast L _ _ z
      exact ⟨fun a1 a2 => (g8 last hlast L z).mpr ⟨a1, a2⟩, fun a1 => ((g8 last hlast L z).mp a1).1⟩
    unfold OutcomeV at ho
    split_ifs at ho with h1 h2
    obtain ⟨fuel, lmb', nf, last, hb, hnf, hlast, ho⟩ := ho
    obtain ⟨hsrt', hm⟩ := irr_iff hn hb
    obtain rfl : lmb = lmb' := by
      refine sorted_ext hsrt hsrt' fun m => ?_
      rw [hm0, hm, irr_ideal hG0 hok0, irr_ideal hG hok]
    rcases ho with ⟨_, hc⟩ | ⟨M, hM, hp2, hpl, ev0, vvec, hg, sqf, xg, hhg, hsqf, hxg, ho⟩
    · exact absurd hc (by simp)
    obtain ⟨c1, c2⟩ := C60_matrix hp31 hn hG hok hsort hb hne hnf last us
    obtain ⟨M', hM', m1, m2, _⟩ := c2 (by
      by_contra hlt
      rw [c1 (by omega)] at hM
      exact absurd hM (by simp))
    rw [hM] at hM'
    obtain rfl : M = M' := by injection hM'
    have hdeg : (sqfPart (minPoly hg ((M.toMat p).pts vecinit vvec) lmb.length) lmb.length sqf).natDegree ≠ lmb.length := by
      intro hdeg
      unfold fglm at ho
      rw [if_pos hdeg] at ho
      simp only [Option.map_eq_some_iff, Att.ok.injEq] at ho
      obtain ⟨r, hr, rfl, rfl, rfl⟩ := ho
      have hc := modular_gb hp31 hG hok hsort hb hne hnf hlast us hM ev0 vecinit vvec hhg hsqf hdeg
      exact hwd (hc.2 r hr).2.2.1
    have hmem : ∀ m, m ∈ lmb ↔ ∀ i, i < G.length → ¬ Spec.lead (fieldPoly p (G.getD i [])) ≤ m := by
      intro m
      rw [hm]
      constructor
      · intro h i hi
        rw [lead_fieldPoly]
        exact h _ (getD_mem [] hi)
      · intro h f hf
        obtain ⟨i, hi, he⟩ := exists_getD [] hf
        have := h i hi
        rwa [lead_fieldPoly, he] at this
    have hmul : IsMulMat (M.toMat p) (fun i => ∏ j, Ideal.Quotient.mk I (X j) ^ (lmb.getD i 0) j) (Ideal.Quotient.mk I (X last)) := by
      simp only [hmv]
      exact m2
    have hnl : (linVars n G.length (fun i j => Orders.ext (Spec.lead (fieldPoly p (G.getD i []))) j)).2 ≠ n := by
      cases hZ : invTable xg (sqfPart (minPoly hg ((M.toMat p).pts vecinit vvec) lmb.length) lmb.length sqf)
        (minPoly hg ((M.toMat p).pts vecinit vvec) lmb.length) (fun i => (M.toMat p).res vecinit vvec i 0) with
      | none =>
        unfold fglm at ho
        rw [if_neg hdeg, hZ] at ho
        simp at ho
      | some Z2 =>
        obtain ⟨-, hone'⟩ := nonshape_dvd (P := fun i => fieldPoly p (G.getD i [])) (lml := G.length) (last := last)
          (x := fun j => Ideal.Quotient.mk I (X j)) (reduced_fieldPoly hR) (mb := lmb) hsrt hmem h0mem B (fun i => by rw [hB, hmv]) hmul m1 vecinit vvec
          hhg hsqf rfl hxg hZ
        intro hc
        have h1 := hone' hc
        apply hdeg
        rw [h1]
        exact minPoly_one hhg _ _
    obtain rfl : last = l0 := Fin.ext (hlast.trans hl0.symm)
    have haev : ∀ f : MvPolynomial (Fin n) (ZMod p), aeval (fun j => Ideal.Quotient.mk I (X j)) f = Ideal.Quotient.mk I f := by
      intro f
      have h := (comp_aeval_apply (Ideal.Quotient.mkₐ (ZMod p) I) f (f := X)).symm
      rw [aeval_X_left_apply] at h
      exact h
    obtain ⟨⟨N, hN⟩, hpt⟩ := hgood G.length (fun i => fieldPoly p (G.getD i [])) (reduced_fieldPoly hR) (by
        intro i hi t ht
        obtain ⟨t', ht'⟩ := (hok _ (getD_mem [] hi)).head
        rw [ht', fieldPoly, List.map_cons, List.head?_cons, Option.some.injEq] at ht
        rw [← ht]
        simp) hlast (by
        intro i hi
        rw [evalAt_fieldPoly, haev, Ideal.Quotient.eq_zero_iff_mem]
        exact hG.1.1 _ ⟨_, getD_mem [] hi, rfl⟩) hsrt hmem h0mem (M.toMat p) hmul m1 vecinit hv vvec hg sqf xg _ _ hhg hsqf hxg _ rfl hdeg hnl d w cs ho
    intro last' hlast' L _ _ z
    obtain rfl : last' = last := Fin.ext (hlast'.trans hlast.symm)
    constructor
    · intro a1 a2 g hg
      obtain ⟨φ, f1, f2⟩ := hpt L _ a1
      have hz : z = fun j => φ (Ideal.Quotient.mk I (X j)) := by
        funext j
        rcases Nat.lt_or_ge j.val (n - 1) with hj | hj
        · have hj : j < last' := by rw [Fin.lt_def]; omega
          rw [a2 j hj]
          exact (f2 j hj).symm
        · obtain rfl : j = last' := Fin.ext (by omega)
          exact f1.symm
      have : aeval z = φ.comp (Ideal.Quotient.mkₐ (ZMod p) I) := by
        apply MvPolynomial.algHom_ext
        intro j
        rw [aeval_X, hz]
        rfl
      rw [this]
      change φ (Ideal.Quotient.mk I g) = 0
      rw [Ideal.Quotient.eq_zero_iff_mem.mpr hg, map_zero]
    · intro hz
      let φ : (MvPolynomial (Fin n) (ZMod p) ⧸ I) →ₐ[ZMod p] L := Ideal.Quotient.liftₐ I (aeval z) hz
      have hφ : φ (Ideal.Quotient.mk I (X last')) = z last' := by
        exact aeval_X z last'
      rw [← hφ]
      exact hom_root φ hN
  | _ => trivial

/-- The points described by the printed parametrization, for most random vectors. -/
theorem run_random {f : File} {names : List (List Char)} {p : ℕ} [hF : Fact p.Prime] {tss : List (List Text.Mon)} (h : InputOk f names p tss)
    (hpl : Plain names p) (handling : ℕ) (us : ℤ) (gp : ℕ) (g : Gens) {lam : ℕ → ZMod p} (hlam : ∀ i, lam i ≠ 0) {D : ℕ}
    (hD : D = Module.finrank (ZMod p) (MvPolynomial (Fin names.length) (ZMod p) ⧸ inputIdeal names.length p tss)) :
    ∃ S : Finset (Fin D → ZMod p), p * S.card ≤ (3 * names.length + 1) * D * p ^ D ∧
      ∀ (vecinit : ℕ → ZMod p) (out : List Char), (fun i : Fin D => vecinit i) ∉ S → RunV handling us gp f.text p g true vecinit lam out →
        ∀ (fc nv d : ℤ) (pnames : List (List Char)) (form : List ℚ) (elim denom : List ℤ) (coords : List (List ℤ)),
          readOutput out = some (.list [.num 0, modParam fc nv d pnames form elim denom coords]) →
          ∀ (L : Type) [Field L] [Algebra (ZMod p) L] (z : Fin names.length → L),
            (Described names pnames elim denom coords z → ∀ q ∈ inputIdeal names.length p tss, aeval z q = 0) ∧
            ((∀ q ∈ inputIdeal names.length p tss, aeval z q = 0) → ∀ i : Fin names.length, pnames.getLast? = some names[i] → value elim (z i) = 0) := by
  by_cases hl : ∃ rs, Loop handling us p (gensOf names p (tss.map (ffPoly names.length p))) g true rs
  swap
  · refine ⟨∅, by simp, ?_⟩
    rintro vecinit out - ⟨names', ps, rs, a, hread, hloop, -⟩
    rw [read_file h] at hread
    simp only [Option.some.injEq, Parse.Data.mk.injEq, Parse.Polys.ff.injEq, true_and] at hread
    obtain ⟨rfl, rfl⟩ := hread
    exact absurd ⟨rs, hloop⟩ hl
  obtain ⟨rs, hloop⟩ := hl
  obtain ⟨hr, hacc⟩ := loop_run hloop
  obtain ⟨hinv, -⟩ := run_inv (start_gensOf h) rs hacc g hr
  obtain ⟨fs, τ, h1, h2, hrel, hname, hlen, hfc, hmem, hcount, hnd⟩ := state_arrays h hpl.small hinv
  have hnd := hnd hpl.added
  have hpos : 0 < g.nvars := lt_of_le_of_lt (Nat.zero_le _) (τ ⟨0, List.length_pos_iff.mpr h.file.some⟩).2
  obtain ⟨S, hS, hgood⟩ := outcome_random h.file.small hpos (I := ExportF4.arrayIdeal p fs) (hD.trans hrel.finrank) hlam
  refine ⟨S, hS.trans ?_, ?_⟩
  · refine Nat.mul_le_mul_right _ (Nat.mul_le_mul_right _ ?_)
    omega
  rintro vecinit out hv ⟨names', ps, rs', a, hread, hloop', ⟨gens, G, hg, hB, ho⟩, hpr⟩ fc nv d pnames form elim denom coords hout L _ _ z
  have hgens : readGens g.nvars g.exps g.cfs 0 g.lens = some (fs.map rawPoly) := by
    have := readGens_of fs
    rwa [h1] at this
  rw [hgens] at hg
  obtain rfl := Option.some.inj hg
  obtain ⟨-, hG, hok, hsort⟩ := basis_reduced h.file.small h2 hB
  have hgV := hgood G hG hok hsort vecinit hv us a ho
  have hg0 := outcome_spec h.file.small h2 hB (outcomeV_iff.mpr ⟨vecinit, lam, hlam, ho⟩)
  have hnm : ∀ s ∈ g.vnames, '\'' ∉ s.toList := by
    intro s hs
    rcases hmem s hs with rfl | ⟨nm, hnm, rfl⟩
    · decide
    · rw [String.toList_ofList]
      exact hpl.quote nm hnm
  cases a with
  | empty =>
    obtain ⟨D, hD⟩ := hpr
    obtain ⟨w, hw, hread⟩ := C71_empty g 0 gp D []
    rw [hD] at hw
    obtain rfl := Option.some.inj hw
    rw [hread] at hout
    simp at hout
  | positive =>
    obtain ⟨D, hD⟩ := hpr
    obtain ⟨w, hw, hread⟩ := C71_dim g (dim := 1) (dquot := -1) one_pos (by decide) gp D []
    rw [hD] at hw
    obtain rfl := Option.some.inj hw
    rw [hread] at hout
    simp at hout
  | failed => exact absurd hpr (by simp [Prints])
  | generic => exact absurd hpr (by simp [Prints])
  | ok d w cs =>
    obtain ⟨-, -, -, h4, -⟩ := hg0
    obtain ⟨D, hS, hD⟩ := hpr
    obtain ⟨nums, hread⟩ := display_parts (by rw [hfc]; exact h.prime.pos.ne') h4 hnm hlen hD
    obtain ⟨l, hl, hl2, hl3⟩ := hS.coords
    rw [hS.denom, hl, hfc, ← hlen] at hread
    have hpl' : (g.vnames.map String.toList).length = g.nvars := by rw [List.length_map, hlen]
    have hnd' : (g.vnames.map String.toList).Nodup := hnd.map fun a b hab => String.toList_inj.mp hab
    rw [hread] at hout
    simp only [Option.some.injEq, Tree.list.injEq, List.cons.injEq, and_true, true_and] at hout
    obtain ⟨rfl, rfl, rfl, rfl, rfl, rfl, rfl, rfl⟩ := modParam_inj hout
    have hcs : ∀ (x : L) (k : ℕ), k < g.nvars - 1 → value ((l.map fun q => q.map fun c : ℕ => (c : ℤ)).getD k []) x = Polynomial.aeval x (cs k) := by
      intro x k hk
      have : (l.map fun q => q.map fun c : ℕ => (c : ℤ)).getD k [] = (l.getD k []).map fun c : ℕ => (c : ℤ) := by
        simp [List.getD_eq_getElem?_getD, hl2, hk]
      rw [this]
      exact value_cast (hl3 k hk) x
    have h1 : ∀ x : L, value [1] x = 1 := by intro x; simp [value]
    have h8 := hgV ⟨g.nvars - 1, by omega⟩ rfl L
    constructor
    · rintro ⟨x, hx1, -, hx2, hx3⟩
      rw [hpl'] at hx1 hx2
      rw [hrel.zeros]
      refine ⟨fun j => x j, (h8 _).1 ?_ ?_, ?_⟩
      · rw [value_cast hS.elim] at hx1
        exact hx1
      · intro k hk
        have hk : k.val < g.nvars - 1 := hk
        have := hx2 k hk
        simp only [Option.getD_some, h1, div_one, List.map_cons, List.map_nil, Nat.cast_one] at this
        rw [this, hcs _ k hk]
      · intro i
        obtain ⟨k, hk1, hk2⟩ := hx3 i
        rw [hk2]
        congr 1
        have e : (g.vnames.map String.toList)[(τ i).val]? = some names[i] := by
          rw [List.getElem?_map, hname]
          simp
        have hk3 : k < (g.vnames.map String.toList).length := by
          by_contra hcon
          rw [List.getElem?_eq_none (by omega)] at hk1
          exact absurd hk1 (by simp)
        exact (List.getElem?_inj hk3 hnd').mp (hk1.trans e.symm)
    · intro hz i hi
      obtain ⟨z', hz', hzz⟩ := (hrel.zeros z).mp hz
      rw [value_cast hS.elim, hzz i]
      have hlast := (h8 z').2 hz'
      have e : (g.vnames.map String.toList)[(τ i).val]? = some names[i] := by
        rw [List.getElem?_map, hname]
        simp
      rw [List.getLast?_eq_getElem?, hpl'] at hi
      have : τ i = ⟨g.nvars - 1, by omega⟩ :=
        Fin.ext ((List.getElem?_inj (j := g.nvars - 1) (by rw [hpl']; exact (τ i).2) hnd').mp (e.trans hi.symm))
      rw [this]
      exact hlast

end Solve

open Verif.Spec Verif.Solve Verif.VarOrder Verif.Spec.Solutions
open Verif.Spec.Output (readOutput Tree)
open Verif.Spec.Text (File)
open Verif.Props.EndToEnd (InputOk inputIdeal)
open MvPolynomial

/-- C82: an execution is one with certain random elements in its last computation. -/
theorem C82_elements {handling : ℕ} {us : ℤ} {gp : ℕ} {input out : List Char} : Run handling us gp input out ↔
    ∃ (p : ℕ) (_ : Fact p.Prime) (g : Gens) (chk : Bool) (vecinit lam : ℕ → ZMod p), (∀ i, lam i ≠ 0) ∧
      RunV handling us gp input p g chk vecinit lam out := by
  constructor
  · rintro ⟨names, p, ps, hF, g, chk, rs, a, h1, h2, ⟨gens, G, h3, h4, h5⟩, h6⟩
    obtain ⟨v, lam, hl, hv⟩ := outcomeV_iff.mp h5
    exact ⟨p, hF, g, chk, v, lam, hl, names, ps, rs, a, h1, h2, ⟨gens, G, h3, h4, hv⟩, h6⟩
  · rintro ⟨p, hF, g, chk, v, lam, hl, names, ps, rs, a, h1, h2, ⟨gens, G, h3, h4, hv⟩, h6⟩
    exact ⟨names, p, ps, hF, g, chk, rs, a, h1, h2, ⟨gens, G, h3, h4, outcomeV_iff.mpr ⟨v, lam, hl, hv⟩⟩, h6⟩

variable {f : File} {names : List (List Char)} {p : ℕ} [hF : Fact p.Prime] {tss : List (List Text.Mon)}

theorem zeros_span {L : Type} [Field L] [Algebra (ZMod p) L] (z : Fin names.length → L) :
    (∀ q ∈ inputIdeal names.length p tss, aeval z q = 0) ↔ ∀ ts ∈ tss, aeval z (Text.poly p names.length ts) = 0 := by
  constructor
  · intro hz ts hts
    exact hz _ (Ideal.subset_span ⟨ts, hts, rfl⟩)
  · intro hz g hg
    have : inputIdeal names.length p tss ≤ RingHom.ker (aeval z : MvPolynomial (Fin names.length) (ZMod p) →ₐ[ZMod p] L).toRingHom := by
      refine Ideal.span_le.mpr ?_
      rintro _ ⟨ts, hts, rfl⟩
      exact hz ts hts
    exact this hg

/-- C82: as long as no random linear form has been added, whatever the degree of the printed eliminating polynomial: for each choice of the elements `lam` and all but a
fraction of at most `(3 n + 1) D / p` of the random vectors (`n` variables, quotient of dimension `D`) each described point is a solution, and the last
coordinate of each solution is a root of the printed eliminating polynomial. -/
theorem C82_points (h : InputOk f names p tss) (hpl : Solve.Plain names p) (handling : ℕ) (us : ℤ) (gp : ℕ) (g : Gens) {lam : ℕ → ZMod p}
    (hlam : ∀ i, lam i ≠ 0) {D : ℕ} (hD : D = Module.finrank (ZMod p) (MvPolynomial (Fin names.length) (ZMod p) ⧸ inputIdeal names.length p tss)) :
    ∃ S : Finset (Fin D → ZMod p), p * S.card ≤ (3 * names.length + 1) * D * p ^ D ∧
      ∀ (vecinit : ℕ → ZMod p) (out : List Char), (fun i : Fin D => vecinit i) ∉ S → RunV handling us gp f.text p g true vecinit lam out →
        ∀ (fc nv d : ℤ) (pnames : List (List Char)) (form : List ℚ) (elim denom : List ℤ) (coords : List (List ℤ)),
          readOutput out = some (.list [.num 0, modParam fc nv d pnames form elim denom coords]) →
          ∀ (L : Type) [Field L] [Algebra (ZMod p) L] (z : Fin names.length → L),
            (Described names pnames elim denom coords z → ∀ ts ∈ tss, aeval z (Text.poly p names.length ts) = 0) ∧
            ((∀ ts ∈ tss, aeval z (Text.poly p names.length ts) = 0) → ∀ i : Fin names.length, pnames.getLast? = some names[i] → value elim (z i) = 0) := by
  obtain ⟨S, h1, h2⟩ := Solve.run_random h hpl handling us gp g hlam hD
  refine ⟨S, h1, fun v out hv hr fc nv d pn fm e dn cs hout L _ _ z => ?_⟩
  rw [← zeros_span]
  exact h2 v out hv hr fc nv d pn fm e dn cs hout L z

/-- Two described points with the same last coordinate are equal. -/
theorem described_inj {L : Type} [Field L] {names pn : List (List Char)} {e dn : List ℤ} {cs : List (List ℤ)} (hnd : pn.Nodup) {i : Fin names.length}
    (hi : pn.getLast? = some names[i]) {z z' : Fin names.length → L} (hz : Described names pn e dn cs z) (hz' : Described names pn e dn cs z')
    (he : z i = z' i) : z = z' := by
  obtain ⟨x, -, -, h3, h4⟩ := hz
  obtain ⟨x', -, -, h3', h4'⟩ := hz'
  rw [List.getLast?_eq_getElem?] at hi
  have hlt : pn.length - 1 < pn.length := by
    by_contra hc
    rw [List.getElem?_eq_none (by omega)] at hi
    exact absurd hi (by simp)
  have hidx : ∀ {j k k' : ℕ} {c : List Char}, pn[k]? = some c → pn[k']? = some c → k = k' := by
    intro j k k' c h h'
    exact (List.getElem?_inj (List.getElem?_eq_some_iff.mp h).1 hnd).mp (h.trans h'.symm)
  have hl : x (pn.length - 1) = x' (pn.length - 1) := by
    obtain ⟨k, hk, hzk⟩ := h4 i
    obtain ⟨k', hk', hzk'⟩ := h4' i
    rw [← hidx (j := 0) hk hi, ← hzk, he, hzk', hidx (j := 0) hk' hk]
  funext j
  obtain ⟨k, hk, hzk⟩ := h4 j
  obtain ⟨k', hk', hzk'⟩ := h4' j
  obtain rfl := hidx (j := 0) hk hk'
  rw [hzk, hzk']
  have hkl := (List.getElem?_eq_some_iff.mp hk).1
  rcases Nat.lt_or_ge k (pn.length - 1) with hlt' | hge
  · rw [h3 k hlt', h3' k hlt', hl]
  · rw [show k = pn.length - 1 by omega, hl]

/-- C82: if the last printed variable takes different values at different solutions, and only then, the described points are exactly the solutions. -/
theorem C82_exact (h : InputOk f names p tss) (hpl : Solve.Plain names p) (handling : ℕ) (us : ℤ) (gp : ℕ) (g : Gens) {lam : ℕ → ZMod p}
    (hlam : ∀ i, lam i ≠ 0) {D : ℕ} (hD : D = Module.finrank (ZMod p) (MvPolynomial (Fin names.length) (ZMod p) ⧸ inputIdeal names.length p tss)) :
    ∃ S : Finset (Fin D → ZMod p), p * S.card ≤ (3 * names.length + 1) * D * p ^ D ∧
      ∀ (vecinit : ℕ → ZMod p) (out : List Char), (fun i : Fin D => vecinit i) ∉ S → RunV handling us gp f.text p g true vecinit lam out →
        ∀ (fc nv d : ℤ) (pnames : List (List Char)) (form : List ℚ) (elim denom : List ℤ) (coords : List (List ℤ)),
          readOutput out = some (.list [.num 0, modParam fc nv d pnames form elim denom coords]) →
          ∀ i : Fin names.length, pnames.getLast? = some names[i] → ∀ (L : Type) [Field L] [Algebra (ZMod p) L],
            (∀ z z' : Fin names.length → L, (∀ ts ∈ tss, aeval z (Text.poly p names.length ts) = 0) →
              (∀ ts ∈ tss, aeval z' (Text.poly p names.length ts) = 0) → z i = z' i → z = z') ↔
            ∀ z : Fin names.length → L, (∀ ts ∈ tss, aeval z (Text.poly p names.length ts) = 0) ↔ Described names pnames elim denom coords z := by
  obtain ⟨S, h1, h2⟩ := C82_points h hpl handling us gp g hlam hD
  refine ⟨S, h1, fun v out hv hr fc nv d pn fm e dn cs hout i hi L _ _ => ?_⟩
  have h3 := h2 v out hv hr fc nv d pn fm e dn cs hout L
  obtain ⟨-, -, hdn, hnd, hnames, -⟩ := C78_solutions_partial h hpl (C82_elements.mpr ⟨p, hF, g, true, v, lam, hlam, hr⟩) hout
  refine ⟨fun hsep z => ⟨fun hz => ?_, (h3 z).1⟩, fun hex z z' hz hz' he => described_inj hnd hi ((hex z).mp hz) ((hex z').mp hz') he⟩
  subst hdn
  have hroot := (h3 z).2 hz i hi
  have h1 : ∀ x : L, value [1] x = 1 := by intro x; simp [value]
  rw [List.getLast?_eq_getElem?] at hi
  have hlt : pn.length - 1 < pn.length := by
    by_contra hc
    rw [List.getElem?_eq_none (by omega)] at hi
    exact absurd hi (by simp)
  -- the point over the root
  set x : ℕ → L := fun k => if k = pn.length - 1 then z i else -value (cs.getD k []) (z i) with hx
  have hxl : x (pn.length - 1) = z i := if_pos rfl
  have hmem : ∀ j : Fin names.length, ∃ k, pn[k]? = some names[j] := fun j => List.mem_iff_getElem?.mp (hnames _ (List.getElem_mem _))
  choose k hk using hmem
  have hdes : Described names pn e [1] cs fun j => x (k j) := by
    refine ⟨x, ?_, ?_, ?_, fun j => ⟨k j, hk j, rfl⟩⟩
    · rw [hxl]
      exact hroot
    · rw [h1]
      exact one_ne_zero
    · intro m hm
      rw [h1, div_one, hxl]
      exact if_neg (by omega)
  have hki : k i = pn.length - 1 := ((List.getElem?_inj hlt hnd).mp (hi.trans (hk i).symm)).symm
  have := hsep z _ hz ((h3 _).1 hdes) (by rw [hki, hxl])
  rw [this]
  exact hdes

end Verif.Props
