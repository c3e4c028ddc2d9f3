import Verif.Solve
import Verif.Props.ExportF4
import Verif.Props.Output
import Verif.Props.VarOrder
import Verif.Props.SolveStates
import Verif.SolveRoots
import Verif.Spec.Solutions

namespace Verif.Props
namespace Solve

open Verif.F4 Verif.Pairs Verif.Spec Verif.MulMatrix Verif.Fglm Verif.BM Verif.Hankel Verif.LinForms Verif.VarOrder Verif.Output Verif.Solve
open Verif.Groebner Verif.ExportF4 Verif.Spec.Solutions
open Verif.Spec.Output (readOutput Tree)
open Verif.Spec.Text (File)
open Verif.Parse (ffPoly)
open Verif.Props.EndToEnd (InputOk inputIdeal read_file)
open MvPolynomial

variable {n : ℕ}

/-! ### The minimal polynomial of a sequence for a space of dimension one -/

theorem minPoly_one {K : Type*} [Field K] {hg : Polynomial K → Polynomial K → HM K} (hhg : HgcdOk hg) (pts : List K) (sqf : List (Polynomial K × ℕ)) :
    (sqfPart (minPoly hg pts 1) 1 sqf).natDegree = 1 := by
  have hfin := emgcd_fin hhg (pts.take (2 * 1))
  have hd := hfin.degV
  rw [dg_of_ne hfin.v1] at hd
  have hlen : (pts.take (2 * 1)).length ≤ 2 := by rw [List.length_take]; omega
  have hlc : (emgcd hg St.init 0 (pts.take (2 * 1))).V1.leadingCoeff⁻¹ ≠ 0 := inv_ne_zero (Polynomial.leadingCoeff_ne_zero.mpr hfin.v1)
  have h1 : (minPoly hg pts 1).natDegree = 1 := by
    unfold minPoly
    simp only
    split_ifs with h0
    · exact Polynomial.natDegree_X
    · unfold elimPoly at h0 ⊢
      simp only at h0 ⊢
      rw [Polynomial.natDegree_C_mul hlc] at h0 ⊢
      omega
  unfold sqfPart
  rw [if_pos]
  · exact h1
  · refine ⟨?_, h1⟩
    exact (Polynomial.irreducible_of_degree_eq_one (Polynomial.degree_eq_iff_natDegree_eq_of_pos one_pos |>.mpr h1)).squarefree

/-! ### Infinite dimension -/

theorem not_finite {p : ℕ} [hp : Fact p.Prime] {I : Ideal (MvPolynomial (Fin n) (ZMod p))}
    {G : List (Poly n)} (hG : IsReducedGroebner OKind.drl.mo I { g | ∃ f ∈ G, g = toMv p f }) (hok : ∀ f ∈ G, PolyOk .drl p f)
    (hinf : { m : Mon n | ∀ f ∈ G, ¬ F4.lead f ≤ m }.Infinite) : ¬ Module.Finite (ZMod p) (MvPolynomial (Fin n) (ZMod p) ⧸ I) := by
  intro hf
  set v : { m : Mon n | ∀ f ∈ G, ¬ F4.lead f ≤ m } → MvPolynomial (Fin n) (ZMod p) ⧸ I :=
    fun m => Ideal.Quotient.mk I (monomial (F4.fs m.1) 1) with hv
  have hsm : ∀ (c : ZMod p) (f : MvPolynomial (Fin n) (ZMod p)), c • Ideal.Quotient.mk I f = Ideal.Quotient.mk I (C c * f) := by
    intro c f
    rw [← MvPolynomial.smul_eq_C_mul]
    rfl
  have hlin : LinearIndependent (ZMod p) v := by
    rw [linearIndependent_iff']
    intro s c hc
    set f := ∑ i ∈ s, monomial (F4.fs i.1) (c i) with hf
    have hfI : f ∈ I := by
      rw [← Ideal.Quotient.eq_zero_iff_mem, hf, map_sum, ← hc]
      refine Finset.sum_congr rfl fun i _ => ?_
      rw [hv, hsm, C_mul_monomial, mul_one]
    have hcoef : ∀ i ∈ s, coeff (F4.fs i.1) f = c i := by
      intro i hi
      rw [hf, coeff_sum, Finset.sum_eq_single i]
      · rw [coeff_monomial, if_pos rfl]
      · intro j _ hj
        rw [coeff_monomial, if_neg]
        intro he
        exact hj (Subtype.ext (fs_inj.mp he))
      · exact fun h => absurd hi h
    have hf0 : f = 0 := by
      by_contra hne
      obtain ⟨g, ⟨g', hg', rfl⟩, _, hle⟩ := hG.1.2 f hfI hne
      have hd := OKind.drl.mo.degree_mem_support hne
      obtain ⟨u, hu⟩ := fs_surj (OKind.drl.mo.degree f)
      rw [← hu, mem_support_iff] at hd
      have hul : ∀ f ∈ G, ¬ F4.lead f ≤ u := by
        by_contra hnot
        apply hd
        rw [hf, coeff_sum]
        refine Finset.sum_eq_zero fun i _ => ?_
        rw [coeff_monomial, if_neg]
        intro he
        rw [fs_inj] at he
        exact hnot (he ▸ i.2)
      rw [(hok g' hg').degree, ← hu] at hle
      exact hul g' hg' hle
    intro i hi
    rw [← hcoef i hi, hf0, coeff_zero]
  have := hlin.finite
  exact hinf this

/-! ### One computation -/

/-- What the result of a computation says about the ideal. -/
def Good (p : ℕ) [Fact p.Prime] (I : Ideal (MvPolynomial (Fin n) (ZMod p))) : Att (ZMod p) → Prop
  | .empty => I = ⊤
  | .positive => ¬ Module.Finite (ZMod p) (MvPolynomial (Fin n) (ZMod p) ⧸ I)
  | .failed => I ≠ ⊤ ∧ Module.Finite (ZMod p) (MvPolynomial (Fin n) (ZMod p) ⧸ I)
  | .generic => I ≠ ⊤ ∧ Module.Finite (ZMod p) (MvPolynomial (Fin n) (ZMod p) ⧸ I)
  | .ok d w cs => I ≠ ⊤ ∧ Module.Finite (ZMod p) (MvPolynomial (Fin n) (ZMod p) ⧸ I) ∧
      d = Module.finrank (ZMod p) (MvPolynomial (Fin n) (ZMod p) ⧸ I) ∧ 0 < d ∧ p ≠ 2 ∧ p < 1518500213 ∧
      (w.natDegree = d → Squarefree w ∧ ∀ last : Fin n, last.val = n - 1 → ∀ (L : Type) [Field L] [Algebra (ZMod p) L] (z : Fin n → L),
        (∀ g ∈ I, aeval z g = 0) ↔
          Polynomial.aeval (z last) w = 0 ∧ ∀ k : Fin n, k < last → z k = -Polynomial.aeval (z last) (cs k)) ∧
      ∀ last : Fin n, last.val = n - 1 → ∀ (L : Type) [Field L] [Algebra (ZMod p) L] [IsAlgClosed L] (t : L), Polynomial.aeval t w = 0 →
        ∃ z : Fin n → L, (∀ g ∈ I, aeval z g = 0) ∧ z last = t

theorem setLinear_fst {K : Type*} [Field K] (nlins : ℕ) (linvars : ℕ → ℕ) (lineqs : ℕ → K) (nv : ℕ) (elim : Polynomial K)
    (coords : ℕ → Polynomial K) : (nlins = nv ∧ (setLinear nlins linvars lineqs nv elim coords).1.natDegree = 1) ∨
      (nlins ≠ nv ∧ (setLinear nlins linvars lineqs nv elim coords).1 = elim) := by
  unfold setLinear
  simp only
  split_ifs
  · exact .inl ⟨‹_›, Polynomial.natDegree_X_add_C _⟩
  · exact .inr ⟨‹_›, rfl⟩

/-- In shape position the ideal is the one of the parametrization. -/
def ShapeOf (p : ℕ) [Fact p.Prime] (I : Ideal (MvPolynomial (Fin n) (ZMod p))) : Att (ZMod p) → Prop
  | .ok d w cs => w.natDegree = d → w.Monic ∧ Squarefree w ∧ ∀ last : Fin n, last.val = n - 1 →
      I = Ideal.span ({Polynomial.aeval (X last) w} ∪ {g | ∃ k : Fin n, k < last ∧ g = X k + Polynomial.aeval (X last) (cs k)})
  | _ => True

theorem outcome_gb {p : ℕ} [hp : Fact p.Prime] (hp31 : p < 2 ^ 31) (hn : 1 ≤ n) {I : Ideal (MvPolynomial (Fin n) (ZMod p))}
    {G : List (Poly n)} (hG : IsReducedGroebner OKind.drl.mo I {g | ∃ f ∈ G, g = toMv p f}) (hok : ∀ f ∈ G, PolyOk .drl p f)
    (hsort : G.Pairwise fun a b => OKind.drl.lt (F4.lead a) (F4.lead b)) {us : ℤ} {chk : Bool} {a : Att (ZMod p)}
    (ho : Outcome p us chk G a) : Good p I a ∧ ShapeOf p I a := by
  have hR := redBasis_of hG hok hsort
  have hzero : ∀ g ∈ G, F4.lead g = 0 → G.length = 1 ∧ F4.lead (G.getD 0 []) = 0 := by
    intro g hg h0
    have hall : ∀ f ∈ G, f = g := by
      intro f hf
      by_contra hne
      obtain ⟨t, ht⟩ := (hok f hf).head
      refine hR.red f hf g hg hne (F4.lead f, 1) (by rw [ht]; exact List.mem_cons_self) ?_
      rw [h0]
      exact fun i => Nat.zero_le _
    have hl : G.length = 1 := by
      rcases G with _ | ⟨a, _ | ⟨b, G⟩⟩
      · simp at hg
      · rfl
      · have ha := hall a (by simp)
        have hb := hall b (by simp)
        have := (List.pairwise_cons.mp hR.sorted).1 b (by simp)
        rw [ha, hb] at this
        exact absurd this (OKind.drl.adm.irrefl _)
    refine ⟨hl, ?_⟩
    rw [hall (G.getD 0 []) (getD_mem [] (by omega)), h0]
  unfold Outcome at ho
  split_ifs at ho with h1 h2
  · -- one
    subst ho
    refine ⟨?_, trivial⟩
    show I = ⊤
    obtain ⟨g, rfl⟩ := List.length_eq_one_iff.mp h1.1
    have h0 : F4.lead g = 0 := h1.2
    have hm := hG.1.1 (toMv p g) ⟨g, by simp, rfl⟩
    have hg := hok g (by simp)
    have : toMv p g = 1 := by
      have hdeg := hg.degree
      rw [h0] at hdeg
      have hz := OKind.drl.mo.degree_eq_zero_iff.mp (hdeg.trans (by ext i; rfl))
      rw [hz, hg.monic, C_1]
    rw [Ideal.eq_top_iff_one, ← this]
    exact hm
  · subst ho
    refine ⟨?_, trivial⟩
    show ¬ Module.Finite _ _
    refine not_finite hG hok ?_
    intro hfinite
    have hc := (C23_dimension_zero hn (G.map F4.lead) ?_ ?_).mpr ?_
    · rw [h2] at hc
      exact absurd hc (by simp)
    · rw [List.pairwise_map]
      refine List.Pairwise.imp_of_mem ?_ hR.sorted
      intro f g hf hg hlt
      have hne : f ≠ g := by
        rintro rfl
        exact OKind.drl.adm.irrefl _ hlt
      obtain ⟨t, ht⟩ := (hok f hf).head
      obtain ⟨t', ht'⟩ := (hok g hg).head
      exact ⟨hR.red g hg f hf hne.symm (F4.lead g, 1) (by rw [ht']; exact List.mem_cons_self),
        hR.red f hf g hg hne (F4.lead f, 1) (by rw [ht]; exact List.mem_cons_self)⟩
    · intro l hl
      obtain ⟨f, hf, rfl⟩ := List.mem_map.mp hl
      by_contra hcon
      push Not at hcon
      exact h1 (hzero f hf (funext hcon))
    · refine hfinite.subset ?_
      intro m hm f hf hle
      exact hm _ (List.mem_map_of_mem hf) hle
  · have hn1 : 1 ≤ n := hn
    obtain ⟨fuel, lmb, nf, last, hb, hnf, hlast, ho⟩ := ho
    obtain ⟨B, hB⟩ := C60_basis hn1 hG hok hb
    obtain ⟨hsrt, hm⟩ := irr_iff hn1 hb
    have hfinite : Module.Finite (ZMod p) (MvPolynomial (Fin n) (ZMod p) ⧸ I) := Module.Finite.of_basis B
    have hrank : lmb.length = Module.finrank (ZMod p) (MvPolynomial (Fin n) (ZMod p) ⧸ I) := by
      rw [Module.finrank_eq_card_basis B, Fintype.card_fin]
    have hne : lmb ≠ [] := by
      rintro rfl
      have := (hm 0).not.mp (by simp)
      push Not at this
      obtain ⟨f, hf, hle⟩ := this
      exact h1 (hzero f hf (funext fun i => Nat.le_zero.mp (hle i)))
    have htop : I ≠ ⊤ := by
      intro ht
      have : Subsingleton (MvPolynomial (Fin n) (ZMod p) ⧸ I) := Ideal.Quotient.subsingleton_iff.mpr ht
      rw [Module.finrank_zero_of_subsingleton] at hrank
      exact hne (List.length_eq_zero_iff.mp hrank)
    rcases ho with ⟨_, rfl⟩ | ⟨M, hM, hp2, hpl, ev0, vecinit, vvec, hg, sqf, xg, lam, hhg, hsqf, hxg, hlam, ho⟩
    · exact ⟨⟨htop, hfinite⟩, trivial⟩
    · unfold fglm at ho
      split_ifs at ho with hdeg
      · simp only [Option.map_eq_some_iff] at ho
        obtain ⟨r, hr, rfl⟩ := ho
        have hc := modular_gb hp31 hG hok hsort hb hne hnf hlast us hM ev0 vecinit vvec hhg hsqf hdeg
        obtain ⟨r1, r2, r3, r4, r5⟩ := hc.2 r hr
        refine ⟨⟨htop, hfinite, hrank, List.length_pos_iff.mpr hne, hp2, hpl, fun _ => ⟨r1, fun last' hl' L _ _ z => ?_⟩, ?_⟩,
          fun _ => ⟨r2, r1, fun last' hl' => by
            obtain rfl : last = last' := Fin.ext (hlast.trans hl'.symm)
            exact r4⟩⟩
        rotate_left
        · intro last' hl' L _ _ _ t ht
          obtain rfl : last = last' := Fin.ext (hlast.trans hl'.symm)
          set z : Fin n → L := fun k => if k = last then t else -Polynomial.aeval t (r.2 k) with hz
          have hzl : z last = t := if_pos rfl
          refine ⟨z, ?_, hzl⟩
          exact (r5 L z).mpr ⟨by rw [hzl]; exact ht, fun k hk => by rw [hzl, hz]; simp only [if_neg hk.ne]⟩
        obtain rfl : last = last' := Fin.ext (hlast.trans hl'.symm)
        exact r5 L z
      · split at ho
        · obtain rfl := Option.some.inj ho
          exact ⟨⟨htop, hfinite⟩, trivial⟩
        · rename_i Z2 hZ
          simp only at ho
          split_ifs at ho
          · obtain rfl := Option.some.inj ho
            exact ⟨⟨htop, hfinite⟩, trivial⟩
          · obtain rfl := Option.some.inj ho
            exact ⟨⟨htop, hfinite⟩, trivial⟩
          · obtain rfl := Option.some.inj ho
            have hfst := setLinear_fst (linVars n G.length (fun i j => Orders.ext (Spec.lead (fieldPoly p (G.getD i []))) j)).2
              (linVars n G.length (fun i j => Orders.ext (Spec.lead (fieldPoly p (G.getD i []))) j)).1
              (rows slotCheck n (fun j => (fieldPoly p (G.getD j [])).map fun t => (Orders.setEv n 0 (Orders.ext t.1) ev0, t.2))
                (linVars n G.length (fun i j => Orders.ext (Spec.lead (fieldPoly p (G.getD i []))) j)).1) n
              (sqfPart (minPoly hg ((M.toMat p).pts vecinit vvec) lmb.length) lmb.length sqf)
              (tableLoop (sqfPart (minPoly hg ((M.toMat p).pts vecinit vvec) lmb.length) lmb.length sqf)
                (minPoly hg ((M.toMat p).pts vecinit vvec) lmb.length) Z2 ((M.toMat p).res vecinit vvec)
                (linVars n G.length (fun i j => Orders.ext (Spec.lead (fieldPoly p (G.getD i []))) j)).1 n)
            obtain ⟨c1, c2⟩ := C60_matrix hp31 hn1 hG hok hsort hb hne hnf last us
            obtain ⟨M', hM', m1, m2, _⟩ := c2 (by
              by_contra hlt
              rw [c1 (by omega)] at hM
              exact absurd hM (by simp))
            rw [hM] at hM'
            obtain rfl : M = M' := by injection hM'
            have hmv : ∀ u : Mon n, ∏ j, Ideal.Quotient.mk I (X j) ^ u j = Ideal.Quotient.mk I (monomial (F4.fs u) 1) := mval_quot
            obtain ⟨hdvd, hone⟩ := nonshape_dvd (P := fun i => fieldPoly p (G.getD i [])) (lml := G.length) (last := last)
              (x := fun j => Ideal.Quotient.mk I (X j)) (reduced_fieldPoly hR) (mb := lmb) hsrt (by
                intro m
                rw [hm]
                constructor
                · intro h i hi
                  rw [lead_fieldPoly]
                  exact h _ (getD_mem [] hi)
                · intro h f hf
                  obtain ⟨i, hi, he⟩ := exists_getD [] hf
                  have := h i hi
                  rwa [lead_fieldPoly, he] at this) (by
                rw [hm]
                intro f hf hle
                exact h1 (hzero f hf (funext fun i => Nat.le_zero.mp (hle i)))) B (fun i => by rw [hB, hmv]) (M := M.toMat p) (by
                simp only [hmv]
                exact m2) m1 vecinit vvec hhg hsqf rfl hxg hZ
            have hlv : (linVars n G.length (fun i j => Orders.ext (Spec.lead (fieldPoly p (G.getD i []))) j)).2 ≠ n := by
              intro hc
              have h1 := hone hc
              apply hdeg
              rw [h1]
              exact minPoly_one hhg _ _
            rcases hfst with ⟨hc, -⟩ | ⟨-, hfst⟩
            · exact absurd hc hlv
            · refine ⟨⟨htop, hfinite, hrank, List.length_pos_iff.mpr hne, hp2, hpl, fun hc => absurd (hfst ▸ hc) hdeg, ?_⟩,
                fun hc => absurd (hfst ▸ hc) hdeg⟩
              intro last' hl' L _ _ _ t ht
              obtain rfl : last = last' := Fin.ext (hlast.trans hl'.symm)
              rw [hfst] at ht
              obtain ⟨φ, hφ⟩ := root_extends hdvd ht
              refine ⟨fun j => φ (Ideal.Quotient.mk I (X j)), ?_, hφ⟩
              intro g hg
              have : aeval (fun j => φ (Ideal.Quotient.mk I (X j))) = φ.comp (Ideal.Quotient.mkₐ (ZMod p) I) := by
                apply MvPolynomial.algHom_ext
                intro j
                rw [aeval_X]
                rfl
              rw [this]
              change φ (Ideal.Quotient.mk I g) = 0
              rw [Ideal.Quotient.eq_zero_iff_mem.mpr hg, map_zero]

theorem outcome_spec {p : ℕ} [hp : Fact p.Prime] (hp2 : p < 2 ^ 31) {fs : List (List (ℤ × (Fin n → ℕ)))} (h : ArraysOk p fs)
    {G : List (Poly n)} (hB : Basis 0 0 p true (fs.map rawPoly) G) {us : ℤ} {chk : Bool} {a : Att (ZMod p)}
    (ho : Outcome p us chk G a) : Good p (ExportF4.arrayIdeal p fs) a := by
  obtain ⟨hn, F, Cf, s, hF, hI, hC, hord, hpp, hs, hd, hfin⟩ := ExportF4.basis_parts (fun _ => by decide) hp.out hp2 h hB
  have hord : Cf.ord = .drl := by rw [hord]; rfl
  rw [if_pos rfl] at hfin
  rw [← hI]
  clear hI hB h hp2
  subst hpp
  have hF : ∀ f ∈ F, PolyOk Cf.ord Cf.p f := by rw [hord]; exact hF
  obtain ⟨hG, hok, hsort⟩ := (C44_reduced hC hF).2 s G hs hd hfin
  rw [hord] at hG hok hsort
  exact (outcome_gb hC.p31 hn hG hok hsort ho).1

/-! ### The restarts -/

theorem loop_run {handling : ℕ} {us : ℤ} {p : ℕ} [Fact p.Prime] {g0 g : Gens} {chk : Bool} {rs : List Result} (h : Loop handling us p g0 g chk rs) :
    run handling g0 rs = some g ∧ ∀ d, .generic d ∈ rs → Accepted p (g0.nvars + 1) d := by
  induction h with
  | start => exact ⟨rfl, by simp⟩
  | failed _ _ hr ih =>
    refine ⟨?_, ?_⟩
    · have := ih.1
      unfold run at this ⊢
      rw [List.foldlM_append, this]
      simpa using hr
    · intro d hd
      exact ih.2 d (by simpa using hd)
  | generic d' _ _ ha hr ih =>
    refine ⟨?_, ?_⟩
    · have := ih.1
      unfold run at this ⊢
      rw [List.foldlM_append, this]
      simpa using hr
    · intro d hd
      rcases List.mem_append.mp hd with hd | hd
      · exact ih.2 d hd
      · simp only [List.mem_singleton, Result.generic.injEq] at hd
        exact hd ▸ ha

theorem start_gensOf {f : File} {names : List (List Char)} {p : ℕ} {tss : List (List Text.Mon)} (h : InputOk f names p tss) :
    Start (gensOf names p (tss.map (ffPoly names.length p))) := by
  have ha := arrays_raw0 names p tss
  have hl : (Arrays.of (tss.map (raw0 names.length p))).lens = (gensOf names p (tss.map (ffPoly names.length p))).lens := by rw [ha]
  have he : (Arrays.of (tss.map (raw0 names.length p))).exps = (gensOf names p (tss.map (ffPoly names.length p))).exps := by rw [ha]
  have hc : (Arrays.of (tss.map (raw0 names.length p))).cfs = (gensOf names p (tss.map (ffPoly names.length p))).cfs := by rw [ha]
  refine ⟨⟨List.length_pos_iff.mpr h.file.some, by simp [gensOf], ?_, ?_, ?_⟩, rfl, rfl, rfl, h.prime.one_lt.ne'⟩
  · rw [← hl, ← he, lens_sum, exps_flat, flat_length]
    rfl
  · intro _
    rw [← hl, ← hc, lens_sum]
    simp [Arrays.of, List.length_flatMap, List.length_flatten]
  · intro h0
    exact absurd h0 h.prime.pos.ne'

/-- The last computation of a run. -/
theorem run_parts {f : File} {names : List (List Char)} {p : ℕ} [hF : Fact p.Prime] {tss : List (List Text.Mon)} (h : InputOk f names p tss)
    (hsmall : names.length < p) {handling : ℕ} {us : ℤ} {gp : ℕ} {out : List Char} (hrun : Run handling us gp f.text out) :
    ∃ (g : Gens) (a : Att (ZMod p)) (I : Ideal (MvPolynomial (Fin g.nvars) (ZMod p))) (τ : Fin names.length → Fin g.nvars), Good p I a ∧
      Prints gp g a out ∧ Rel (inputIdeal names.length p tss) I τ ∧ (∀ i, g.vnames[(τ i).val]? = some (String.ofList names[i])) ∧
      g.vnames.length = g.nvars ∧ g.fc = p ∧ (∀ s ∈ g.vnames, s = "A" ∨ ∃ nm ∈ names, s = String.ofList nm) ∧
      (g.nvars = names.length ∨ g.nvars = names.length + 1) ∧ (['A'] ∉ names → g.vnames.Nodup) := by
  obtain ⟨names', p', ps, hF', g, chk, rs, a, hread, hloop, ⟨gens, G, hg, hB, ho⟩, hpr⟩ := hrun
  rw [read_file h] at hread
  simp only [Option.some.injEq, Parse.Data.mk.injEq, Parse.Polys.ff.injEq, Nat.cast_inj] at hread
  obtain ⟨rfl, rfl, rfl⟩ := hread
  obtain ⟨hr, hacc⟩ := loop_run hloop
  obtain ⟨hinv, -⟩ := run_inv (start_gensOf h) rs hacc g hr
  obtain ⟨fs, τ, h1, h2, h3, h4⟩ := state_arrays h hsmall hinv
  have hgens : readGens g.nvars g.exps g.cfs 0 g.lens = some (fs.map rawPoly) := by
    have := readGens_of fs
    rwa [h1] at this
  rw [hgens] at hg
  obtain rfl := Option.some.inj hg
  exact ⟨g, a, _, τ, outcome_spec h.file.small h2 hB ho, hpr, h3, h4⟩

/-! ### The printed text -/

theorem value_cast {p : ℕ} {L : Type} [Field L] [Algebra (ZMod p) L] {l : List ℕ} {f : Polynomial (ZMod p)} (h : Repr f l) (x : L) :
    value (l.map fun c : ℕ => (c : ℤ)) x = Polynomial.aeval x f := by
  obtain ⟨-, h⟩ := h
  induction l generalizing f with
  | nil =>
    have : f = 0 := by
      ext i
      rw [← h i]
      simp
    rw [this, map_zero]
    rfl
  | cons c l ih =>
    have h0 := h 0
    rw [List.getD_cons_zero] at h0
    have h1 := ih (f := f.divX) fun i => by
      rw [Polynomial.coeff_divX, ← h (i + 1), List.getD_cons_succ]
    rw [← Polynomial.divX_mul_X_add f, map_add, map_mul, Polynomial.aeval_X, Polynomial.aeval_C, ← h0, ← h1]
    simp only [value, List.map_cons, List.foldr_cons, Int.cast_natCast, map_natCast]
    ring

theorem display_parts {g : Gens} (hfc : g.fc ≠ 0) {d gp : ℕ} (hd : 0 < d) {D : ParamData} {out : List Char}
    (hnm : ∀ s ∈ g.vnames, '\'' ∉ s.toList) (hlen : g.vnames.length = g.nvars) (h : displayOutput g 0 d gp D [] = some out) :
    ∃ nums : List ℤ, readOutput out = some (.list [.num 0,
      modParam g.fc g.nvars d (g.vnames.map String.toList) (nums.map fun a : ℤ => (a : ℚ))
        (D.melim.map fun c : ℕ => (c : ℤ)) (D.mdenom.map fun c : ℕ => (c : ℤ))
        ((D.mcoords.getD []).map fun q => q.map fun c : ℕ => (c : ℤ))]) := by
  have hq : (0 : ℤ) < d := by exact_mod_cast hd
  have h' := h
  rw [display_zero g hq, if_pos (show 1 ≤ gp ∨ g.fc ≠ 0 from .inr hfc)] at h'
  have h1 : D.fits g ∧ ∃ q, printedForm g = some q := by
    unfold paramText at h'
    by_cases hf : D.fits g
    · refine ⟨hf, ?_⟩
      cases hpf : printedForm g with
      | none => rw [hpf] at h'; simp [hf] at h'
      | some q => exact ⟨q, rfl⟩
    · simp [hf] at h'
  obtain ⟨hfit, ⟨nums, den⟩, hpf⟩ := h1
  obtain ⟨w, hw, hread⟩ := C71_mod hfc hq gp hfit hpf hnm []
  rw [h] at hw
  obtain rfl := Option.some.inj hw
  rw [List.take_of_length_le hlen.le] at hread
  exact ⟨nums, hread⟩

/-- What is asked of the input beside `InputOk`: the characteristic exceeds the number of variables, no variable has the name of the additional variable, no name
contains a quote. -/
structure Plain (names : List (List Char)) (p : ℕ) : Prop where
  small : names.length < p
  added : ['A'] ∉ names
  quote : ∀ nm ∈ names, '\'' ∉ nm

/-- The result for systems with finitely many solutions. -/
structure Result0 (names : List (List Char)) (p : ℕ) (I : Ideal (MvPolynomial (Fin names.length) (ZMod p))) (d : ℕ) (pnames : List (List Char))
    (elim : List ℤ) (coords : List (List ℤ)) : Prop where
  rank : d = Module.finrank (ZMod p) (MvPolynomial (Fin names.length) (ZMod p) ⧸ I)
  nodup : pnames.Nodup
  mem : ∀ nm ∈ names, nm ∈ pnames
  count : pnames.length = names.length ∨ pnames.length = names.length + 1
  ncoords : coords.length = pnames.length - 1
  range : ∀ c ∈ elim, 0 ≤ c ∧ c < p
  solutions : ∀ [Fact p.Prime], elim.length = d + 1 → ∀ (L : Type) [Field L] [Algebra (ZMod p) L] (z : Fin names.length → L),
    (∀ f ∈ I, aeval z f = 0) ↔ Described names pnames elim [1] coords z
  roots : ∀ [Fact p.Prime] (L : Type) [Field L] [Algebra (ZMod p) L] [IsAlgClosed L] (t : L), value elim t = 0 →
    ∃ z : Fin names.length → L, (∀ f ∈ I, aeval z f = 0) ∧ ∀ i : Fin names.length, pnames.getLast? = some names[i] → z i = t

theorem run_cases {f : File} {names : List (List Char)} {p : ℕ} {tss : List (List Text.Mon)} (h : InputOk f names p tss)
    (hpl : Plain names p) {handling : ℕ} {us : ℤ} {gp : ℕ} {out : List Char} (hrun : Run handling us gp f.text out) :
    (inputIdeal names.length p tss = ⊤ ∧ readOutput out = some (.list [.num (-1)])) ∨
    (¬ Module.Finite (ZMod p) (MvPolynomial (Fin names.length) (ZMod p) ⧸ inputIdeal names.length p tss) ∧
      ∃ nv : ℕ, (nv = names.length ∨ nv = names.length + 1) ∧ readOutput out = some (.list [.num 1, .num nv, .num (-1), .list []])) ∨
    (inputIdeal names.length p tss ≠ ⊤ ∧ Module.Finite (ZMod p) (MvPolynomial (Fin names.length) (ZMod p) ⧸ inputIdeal names.length p tss) ∧
      p ≠ 2 ∧ p < 1518500213 ∧ ∃ (d : ℕ) (pnames : List (List Char)) (form : List ℚ) (elim : List ℤ) (coords : List (List ℤ)),
        readOutput out = some (.list [.num 0, modParam p pnames.length d pnames form elim [1] coords]) ∧
        Result0 names p (inputIdeal names.length p tss) d pnames elim coords) := by
  have hF : Fact p.Prime := ⟨h.prime⟩
  obtain ⟨g, a, I, τ, hgood, hpr, hrel, hname, hlen, hfc, hmem, hcount, hnd⟩ := run_parts h hpl.small hrun
  have hnd := hnd hpl.added
  have hnm : ∀ s ∈ g.vnames, '\'' ∉ s.toList := by
    intro s hs
    rcases hmem s hs with rfl | ⟨nm, hnm, rfl⟩
    · decide
    · rw [String.toList_ofList]
      exact hpl.quote nm hnm
  cases a with
  | empty =>
    obtain ⟨D, hD⟩ := hpr
    obtain ⟨w, hw, hread⟩ := C71_empty g 0 gp D []
    rw [hD] at hw
    obtain rfl := Option.some.inj hw
    exact Or.inl ⟨hrel.top.mpr hgood, hread⟩
  | positive =>
    obtain ⟨D, hD⟩ := hpr
    obtain ⟨w, hw, hread⟩ := C71_dim g (dim := 1) (dquot := -1) one_pos (by decide) gp D []
    rw [hD] at hw
    obtain rfl := Option.some.inj hw
    exact Or.inr (Or.inl ⟨hrel.finite.not.mpr hgood, g.nvars, hcount, hread⟩)
  | failed => exact absurd hpr (by simp [Prints])
  | generic => exact absurd hpr (by simp [Prints])
  | ok d w cs =>
    obtain ⟨h1, h2, h3, h4, h5, h6, h7, hroots⟩ := hgood
    obtain ⟨D, hS, hD⟩ := hpr
    obtain ⟨nums, hread⟩ := display_parts (by rw [hfc]; exact h.prime.pos.ne') h4 hnm hlen hD
    obtain ⟨l, hl, hl2, hl3⟩ := hS.coords
    rw [hS.denom, hl, hfc, ← hlen] at hread
    have hpl' : (g.vnames.map String.toList).length = g.nvars := by rw [List.length_map, hlen]
    refine Or.inr (Or.inr ⟨hrel.top.not.mpr h1, hrel.finite.mpr h2, h5, h6, d, g.vnames.map String.toList, nums.map fun a : ℤ => (a : ℚ),
      D.melim.map fun c : ℕ => (c : ℤ), l.map fun q => q.map fun c : ℕ => (c : ℤ), ?_, ?_, ?_, ?_, ?_, ?_, ?_, ?_, ?_⟩)
    · rw [hread, List.length_map]
      rfl
    · rw [h3, hrel.finrank]
    · exact hnd.map fun a b hab => String.toList_inj.mp hab
    · intro nm hnm
      obtain ⟨i, hi, rfl⟩ := List.mem_iff_getElem.mp hnm
      refine List.mem_map.mpr ⟨_, List.mem_of_getElem? (hname ⟨i, hi⟩), ?_⟩
      simp
    · rwa [hpl']
    · rw [hpl', List.length_map, hl2]
    · intro c hc
      obtain ⟨c', hc', rfl⟩ := List.mem_map.mp hc
      have := hS.elim.1 c' hc'
      exact ⟨by omega, by omega⟩
    · intro _ hel L _ _ z
      have hdeg : w.natDegree = d := by
        rw [List.length_map, hS.len] at hel
        omega
      have hpos : 0 < g.nvars := lt_of_le_of_lt (Nat.zero_le _) (τ ⟨0, List.length_pos_iff.mpr h.file.some⟩).2
      obtain ⟨-, h8⟩ := h7 hdeg
      have h8 := h8 ⟨g.nvars - 1, by omega⟩ rfl L
      have hcs : ∀ (x : L) (k : ℕ), k < g.nvars - 1 → value ((l.map fun q => q.map fun c : ℕ => (c : ℤ)).getD k []) x = Polynomial.aeval x (cs k) := by
        intro x k hk
        have : (l.map fun q => q.map fun c : ℕ => (c : ℤ)).getD k [] = (l.getD k []).map fun c : ℕ => (c : ℤ) := by
          simp [List.getD_eq_getElem?_getD, hl2, hk]
        rw [this]
        exact value_cast (hl3 k hk) x
      have h1 : ∀ x : L, value [1] x = 1 := by intro x; simp [value]
      rw [hrel.zeros]
      unfold Described
      rw [hpl']
      simp only [value_cast hS.elim, h1, div_one]
      constructor
      · rintro ⟨z', hz', hzz⟩
        obtain ⟨h9, h10⟩ := (h8 z').mp hz'
        have hx : ∀ j, (hj : j < g.nvars) → (fun j => if hj : j < g.nvars then z' ⟨j, hj⟩ else 0) j = z' ⟨j, hj⟩ := fun j hj => dif_pos hj
        refine ⟨fun j => if hj : j < g.nvars then z' ⟨j, hj⟩ else 0, ?_, one_ne_zero, ?_, ?_⟩
        · rw [hx _ (by omega)]
          exact h9
        · intro k hk
          rw [hx _ (by omega), hx _ (by omega), hcs _ k hk]
          exact h10 ⟨k, by omega⟩ hk
        · intro i
          refine ⟨τ i, ?_, ?_⟩
          · rw [List.getElem?_map, hname]
            simp
          · rw [hx _ (τ i).2]
            exact hzz i
      · rintro ⟨x, hx1, -, hx2, hx3⟩
        refine ⟨fun j => x j, (h8 _).mpr ⟨hx1, ?_⟩, ?_⟩
        · intro k hk
          have hk : k.val < g.nvars - 1 := hk
          rw [hx2 k hk, hcs _ k hk]
        · intro i
          obtain ⟨k, hk1, hk2⟩ := hx3 i
          rw [hk2]
          congr 1
          have e : (g.vnames.map String.toList)[(τ i).val]? = some names[i] := by
            rw [List.getElem?_map, hname]
            simp
          have hnd' : (g.vnames.map String.toList).Nodup := hnd.map fun a b hab => String.toList_inj.mp hab
          have hk3 : k < (g.vnames.map String.toList).length := by
            by_contra hcon
            rw [List.getElem?_eq_none (by omega)] at hk1
            exact absurd hk1 (by simp)
          exact (List.getElem?_inj hk3 hnd').mp (hk1.trans e.symm)
    · intro _ L _ _ _ t ht
      have hpos : 0 < g.nvars := lt_of_le_of_lt (Nat.zero_le _) (τ ⟨0, List.length_pos_iff.mpr h.file.some⟩).2
      rw [value_cast hS.elim] at ht
      obtain ⟨z', hz', hzt⟩ := hroots ⟨g.nvars - 1, by omega⟩ rfl L t ht
      refine ⟨fun i => z' (τ i), (hrel.zeros _).mpr ⟨z', hz', fun _ => rfl⟩, ?_⟩
      intro i hi
      rw [← hzt]
      show z' (τ i) = _
      congr 1
      have e : (g.vnames.map String.toList)[(τ i).val]? = some names[i] := by
        rw [List.getElem?_map, hname]
        simp
      have hnd' : (g.vnames.map String.toList).Nodup := hnd.map fun a b hab => String.toList_inj.mp hab
      rw [List.getLast?_eq_getElem?, hpl'] at hi
      apply Fin.ext
      exact (List.getElem?_inj (j := g.nvars - 1) (by rw [hpl']; exact (τ i).2) hnd').mp (e.trans hi.symm)

end Solve

open Verif.Spec Verif.Solve Verif.Spec.Solutions
open Verif.Spec.Output (readOutput Tree)
open Verif.Spec.Text (File)
open Verif.Props.EndToEnd (InputOk inputIdeal)
open MvPolynomial

variable {f : File} {names : List (List Char)} {p : ℕ} {tss : List (List Text.Mon)} {handling : ℕ} {us : ℤ} {gp : ℕ} {out : List Char}

/-- C78: the text printed for an input file over a prime field has one of three forms. -/
theorem C78_forms (h : InputOk f names p tss) (hpl : Solve.Plain names p) (hrun : Run handling us gp f.text out) :
    readOutput out = some (.list [.num (-1)]) ∨
    (∃ nv : ℕ, (nv = names.length ∨ nv = names.length + 1) ∧ readOutput out = some (.list [.num 1, .num nv, .num (-1), .list []])) ∨
    ∃ (d : ℕ) (pnames : List (List Char)) (form : List ℚ) (elim : List ℤ) (coords : List (List ℤ)),
      readOutput out = some (.list [.num 0, modParam p pnames.length d pnames form elim [1] coords]) := by
  rcases Solve.run_cases h hpl hrun with ⟨-, h1⟩ | ⟨-, h1⟩ | ⟨-, -, -, -, d, pn, fm, e, c, h1, -⟩
  · exact Or.inl h1
  · exact Or.inr (Or.inl h1)
  · exact Or.inr (Or.inr ⟨d, pn, fm, e, c, h1⟩)

/-- C78: `[-1]` is printed exactly if the polynomials in the file generate the unit ideal (no solutions over any field). -/
theorem C78_empty (h : InputOk f names p tss) (hpl : Solve.Plain names p) (hrun : Run handling us gp f.text out) :
    readOutput out = some (.list [.num (-1)]) ↔ inputIdeal names.length p tss = ⊤ := by
  have htop : inputIdeal names.length p tss = ⊤ → Module.Finite (ZMod p) (MvPolynomial (Fin names.length) (ZMod p) ⧸ inputIdeal names.length p tss) := by
    intro ht
    have : Subsingleton (MvPolynomial (Fin names.length) (ZMod p) ⧸ inputIdeal names.length p tss) := Ideal.Quotient.subsingleton_iff.mpr ht
    infer_instance
  rcases Solve.run_cases h hpl hrun with ⟨h0, h1⟩ | ⟨h0, nv, -, h1⟩ | ⟨h0, -, -, -, d, pn, fm, e, c, h1, -⟩
  · exact ⟨fun _ => h0, fun _ => h1⟩
  · refine ⟨fun h2 => ?_, fun h2 => absurd (htop h2) h0⟩
    rw [h1] at h2
    simp at h2
  · refine ⟨fun h2 => ?_, fun h2 => absurd h2 h0⟩
    rw [h1] at h2
    simp at h2

/-- C78: `[1, nv, -1, []]` is printed exactly if the quotient by the ideal of the file has infinite dimension. -/
theorem C78_positive (h : InputOk f names p tss) (hpl : Solve.Plain names p) (hrun : Run handling us gp f.text out) :
    (∃ nv : ℕ, readOutput out = some (.list [.num 1, .num nv, .num (-1), .list []])) ↔
      ¬ Module.Finite (ZMod p) (MvPolynomial (Fin names.length) (ZMod p) ⧸ inputIdeal names.length p tss) := by
  have htop : inputIdeal names.length p tss = ⊤ → Module.Finite (ZMod p) (MvPolynomial (Fin names.length) (ZMod p) ⧸ inputIdeal names.length p tss) := by
    intro ht
    have : Subsingleton (MvPolynomial (Fin names.length) (ZMod p) ⧸ inputIdeal names.length p tss) := Ideal.Quotient.subsingleton_iff.mpr ht
    infer_instance
  rcases Solve.run_cases h hpl hrun with ⟨h0, h1⟩ | ⟨h0, nv, -, h1⟩ | ⟨-, h0, -, -, d, pn, fm, e, c, h1, -⟩
  · refine ⟨fun ⟨nv, h2⟩ => ?_, fun h2 => absurd (htop h0) h2⟩
    rw [h1] at h2
    simp at h2
  · exact ⟨fun _ => h0, fun _ => ⟨nv, h1⟩⟩
  · refine ⟨fun ⟨nv, h2⟩ => ?_, fun h2 => absurd h0 h2⟩
    rw [h1] at h2
    simp at h2

/-- C78: a printed parametrization: the third entry is the dimension of the quotient by the ideal of the file (finite and positive), the denominator is 1; if the
degree of the eliminating polynomial is that dimension then the points described are exactly the solutions, in every extension field.

Missing (why partial): nothing is said about the points if the degree is smaller; the text is then printed after tests that succeed with a probability only, or
without any test (`C78_incomplete`). -/
theorem C78_solutions_partial (h : InputOk f names p tss) (hpl : Solve.Plain names p) (hrun : Run handling us gp f.text out)
    {fc nv d : ℤ} {pnames : List (List Char)} {form : List ℚ} {elim denom : List ℤ} {coords : List (List ℤ)}
    (hout : readOutput out = some (.list [.num 0, modParam fc nv d pnames form elim denom coords])) :
    fc = p ∧ nv = pnames.length ∧ denom = [1] ∧ pnames.Nodup ∧ (∀ nm ∈ names, nm ∈ pnames) ∧
    inputIdeal names.length p tss ≠ ⊤ ∧ Module.Finite (ZMod p) (MvPolynomial (Fin names.length) (ZMod p) ⧸ inputIdeal names.length p tss) ∧
    d = Module.finrank (ZMod p) (MvPolynomial (Fin names.length) (ZMod p) ⧸ inputIdeal names.length p tss) ∧
    (elim.length = d + 1 → ∀ (L : Type) [Field L] [Algebra (ZMod p) L] (z : Fin names.length → L),
      (∀ ts ∈ tss, aeval z (Text.poly p names.length ts) = 0) ↔ Described names pnames elim denom coords z) := by
  have hF : Fact p.Prime := ⟨h.prime⟩
  rcases Solve.run_cases h hpl hrun with ⟨h0, h1⟩ | ⟨h0, nv, -, h1⟩ | ⟨h0, hf, -, -, d', pn, fm, e, c, h1, h2⟩
  · rw [h1] at hout
    simp at hout
  · rw [h1] at hout
    simp at hout
  · rw [h1] at hout
    simp only [Option.some.injEq, Tree.list.injEq, List.cons.injEq, and_true, true_and] at hout
    obtain ⟨rfl, rfl, rfl, rfl, rfl, rfl, rfl, rfl⟩ := modParam_inj hout
    refine ⟨rfl, rfl, rfl, h2.nodup, h2.mem, h0, hf, by rw [h2.rank], ?_⟩
    intro hel L _ _ z
    rw [← h2.solutions (by exact_mod_cast hel) L z]
    constructor
    · intro hz g hg
      have : inputIdeal names.length p tss ≤ RingHom.ker (aeval z : MvPolynomial (Fin names.length) (ZMod p) →ₐ[ZMod p] L).toRingHom := by
        refine Ideal.span_le.mpr ?_
        rintro _ ⟨ts, hts, rfl⟩
        exact hz ts hts
      exact this hg
    · intro hz ts hts
      exact hz _ (Ideal.subset_span ⟨ts, hts, rfl⟩)

/-- C78: whatever the degree of the printed eliminating polynomial: each of its roots (in an algebraically closed extension field) comes from a solution of the
system in the file, and is the value of the last printed variable there if that is one of the file. -/
theorem C78_roots (h : InputOk f names p tss) (hpl : Solve.Plain names p) (hrun : Run handling us gp f.text out)
    {fc nv d : ℤ} {pnames : List (List Char)} {form : List ℚ} {elim denom : List ℤ} {coords : List (List ℤ)}
    (hout : readOutput out = some (.list [.num 0, modParam fc nv d pnames form elim denom coords]))
    (L : Type) [Field L] [Algebra (ZMod p) L] [IsAlgClosed L] {t : L} (ht : value elim t = 0) :
    ∃ z : Fin names.length → L, (∀ ts ∈ tss, aeval z (Text.poly p names.length ts) = 0) ∧
      ∀ i : Fin names.length, pnames.getLast? = some names[i] → z i = t := by
  have hF : Fact p.Prime := ⟨h.prime⟩
  rcases Solve.run_cases h hpl hrun with ⟨h0, h1⟩ | ⟨h0, nv, -, h1⟩ | ⟨h0, hf, -, -, d', pn, fm, e, c, h1, h2⟩
  · rw [h1] at hout
    simp at hout
  · rw [h1] at hout
    simp at hout
  · rw [h1] at hout
    simp only [Option.some.injEq, Tree.list.injEq, List.cons.injEq, and_true, true_and] at hout
    obtain ⟨rfl, rfl, rfl, rfl, rfl, rfl, rfl, rfl⟩ := modParam_inj hout
    obtain ⟨z, hz, hzt⟩ := h2.roots L t ht
    exact ⟨z, fun ts hts => hz _ (Ideal.subset_span ⟨ts, hts, rfl⟩), hzt⟩

/-- C78: for a system with finitely many solutions, at least one, nothing is printed in characteristic 2 and for characteristics from 1518500213 on. -/
theorem C78_no_output (h : InputOk f names p tss) (hpl : Solve.Plain names p) (hp : p = 2 ∨ 1518500213 ≤ p)
    (h0 : inputIdeal names.length p tss ≠ ⊤)
    (hf : Module.Finite (ZMod p) (MvPolynomial (Fin names.length) (ZMod p) ⧸ inputIdeal names.length p tss)) :
    ¬ Run handling us gp f.text out := by
  intro hrun
  rcases Solve.run_cases h hpl hrun with ⟨h1, -⟩ | ⟨h1, -⟩ | ⟨-, -, h1, h2, -⟩
  · exact h0 h1
  · exact h1 hf
  · omega

/-- C78: if the system has more than `p` solutions with coordinates in the prime field then the points described by a printed parametrization are not all of
them. -/
theorem C78_incomplete (h : InputOk f names p tss) (hpl : Solve.Plain names p) (hrun : Run handling us gp f.text out)
    {fc nv d : ℤ} {pnames : List (List Char)} {form : List ℚ} {elim denom : List ℤ} {coords : List (List ℤ)}
    (hout : readOutput out = some (.list [.num 0, modParam fc nv d pnames form elim denom coords])) :
    have : Fact p.Prime := ⟨h.prime⟩
    ∀ S : Finset (Fin names.length → ZMod p), p < S.card → ∃ z ∈ S, ¬ Described names pnames elim denom coords z := by
  intro hF S hS
  obtain ⟨-, -, -, hnd, hnames, -⟩ := C78_solutions_partial h hpl hrun hout
  by_contra hcon
  push Not at hcon
  choose! x hx using hcon
  have hmap : ∀ z ∈ S, (x z (pnames.length - 1)) ∈ (Finset.univ : Finset (ZMod p)) := fun z _ => Finset.mem_univ _
  obtain ⟨z1, hz1, z2, hz2, hne, heq⟩ := Finset.exists_ne_map_eq_of_card_lt_of_maps_to (by rw [Finset.card_univ, ZMod.card]; exact hS) hmap
  apply hne
  obtain ⟨-, -, a1, b1⟩ := hx z1 hz1
  obtain ⟨-, -, a2, b2⟩ := hx z2 hz2
  have hxx : ∀ k, k < pnames.length → x z1 k = x z2 k := by
    intro k hk
    rcases Nat.lt_or_ge k (pnames.length - 1) with hk' | hk'
    · rw [a1 k hk', a2 k hk', heq]
    · rw [show k = pnames.length - 1 by omega, heq]
  funext i
  obtain ⟨k1, hk1, e1⟩ := b1 i
  obtain ⟨k2, hk2, e2⟩ := b2 i
  have hl1 : k1 < pnames.length := by
    by_contra hcon
    rw [List.getElem?_eq_none (by omega)] at hk1
    exact absurd hk1 (by simp)
  rw [e1, e2, hxx k1 hl1]
  congr 1
  exact (List.getElem?_inj hl1 hnd).mp (hk1.trans hk2.symm)

end Verif.Props
