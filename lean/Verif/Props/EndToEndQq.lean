import Verif.Spec.Header
import Verif.EndToEndQq
import Verif.Props.Trace
import Verif.Props.LiftStore
import Verif.Props.PrintQq
import Verif.Props.EndToEnd
import Verif.Props.Arith

/-!
C79: from the input file to the printed Gröbner basis over the rationals.
-/
namespace Verif.Props
namespace EndToEndQq

open Verif.Orders Verif.Import Verif.Parse Verif.F4 Verif.Spec Verif.EndToEnd Verif.EndToEndQq Verif.Groebner Verif.LiftStore
open Verif.Lucky Verif.ElimField MvPolynomial
open Verif.Spec.Text (File FileOk ExpandedQ idealQ polyQ polyMod LuckyPrime)

/-- What is assumed of an input file: C58, and the polynomials are expanded. -/
structure InputOkQ (f : File) (names : List (List Char)) (tss : List (List Text.Mon)) : Prop where
  file : FileOk f names 0 tss
  expanded : ∀ ts ∈ tss, ExpandedQ names.length ts

theorem read_fileQ {f : File} {names : List (List Char)} {tss : List (List Text.Mon)} (h : FileOk f names 0 tss) :
    readFile f.text = some ⟨names, 0, .qq (tss.map (qqPoly names.length))⟩ := by
  obtain ⟨qs, h1, h2⟩ := readFile_prefix h
  rw [h2, if_pos (by simp), mapM_forall₂ (G := qqPoly names.length)]
  · rfl
  · rw [List.forall₂_iff_get] at h1 ⊢
    refine ⟨h1.1, fun i hi hi2 => ?_⟩
    obtain ⟨tl, htl, hc⟩ := h1.2 i hi hi2
    have hmem := List.get_mem tss ⟨i, hi2⟩
    rw [hc]
    generalize tss.get ⟨i, hi2⟩ = ts at hmem
    have hne := h.terms ts hmem
    obtain ⟨t, ts, rfl⟩ := List.exists_cons_of_ne_nil hne
    exact parseQq_line h.name h.nodup (h.ok _ hmem) (h.fits _ hmem) htl

theorem import_allQ {n : ℕ} {tss : List (List Text.Mon)} (hne : tss ≠ []) (hE : ∀ ts ∈ tss, ExpandedQ n ts) :
    importGens invalidQ 0 (tss.map (qqPoly n)) = .ok (tss.map (qqPoly n)) (tss.map (qqPoly n)).length := by
  have := C15_no_generator_lost_partial invalidQ (tss.map (qqPoly n)) [] (by simpa using hne) (by
      intro g hg
      obtain ⟨ts, hts, rfl⟩ := List.mem_map.mp hg
      have hE := hE ts hts
      simp only [invalidQ, invalid, qqPoly, List.any_eq_false, List.mem_flatMap, List.mem_map, beq_iff_eq]
      rintro x ⟨_, ⟨t, ht, rfl⟩, hx⟩
      simp only [List.mem_cons, List.not_mem_nil, or_false] at hx
      rcases hx with rfl | rfl
      · exact hE.numer t ht
      · exact hE.denom t ht) (by simp)
  rwa [List.append_nil] at this

theorem input_parts {tss : List (List Text.Mon)} {e n : ℕ} (hn : 0 < n) (ht : ∀ ts ∈ tss, ts ≠ []) (hE : ∀ ts ∈ tss, ExpandedQ (e + n) ts)
    {Z : List (List ((Fin (e + n) → ℕ) × ℤ))} (h : Input e n (tss.map (qqPoly (e + n))) Z) :
    ∃ tss', tss'.Perm tss ∧ List.Forall₂ (GenOf e) tss' Z := by
  obtain ⟨g0, g, i1, i2, i3⟩ := h
  obtain ⟨Z', e1, tss', e2, e3⟩ := primitive_spec (by omega) ht hE i1 i2
  rw [i3] at e1
  obtain rfl := Option.some.inj e1
  exact ⟨tss', e2, e3⟩

/-- The parts of an execution. -/
theorem run_parts {f : File} {names : List (List Char)} {tss : List (List Text.Mon)} (h : InputOkQ f names tss) {E : LiftGB.Ext}
    {nt e n : ℕ} {us : List ℕ} {r : Res (List Char)} (hr : Run E nt e n f.text us r) :
    names.length = e + n ∧ 0 < n ∧ ∃ Z tss' b, tss'.Perm tss ∧ List.Forall₂ (GenOf e) tss' Z ∧ Core E nt e n Z none us b ∧
      r = b.map (printLifted names e) := by
  obtain ⟨names', ps, h1, h2, h3, h4⟩ := hr
  rw [read_fileQ h.file] at h1
  have h1 := Option.some.inj h1
  injection h1 with e1 e2 e3
  injection e3 with e3
  subst e1 e3
  rw [import_allQ h.file.polys h.expanded] at h4
  obtain ⟨Z, b, hi, hc, hb⟩ := h4
  have hE := h.expanded
  rw [h2] at hi hE
  obtain ⟨tss', e2, e3⟩ := input_parts h3 h.file.terms hE hi
  exact ⟨h2, h3, Z, tss', b, e2, e3, hc, hb⟩

/-! ### The primes -/

set_option maxRecDepth 100000 in
theorem prime_1303905347 : Nat.Prime 1303905347 := by norm_num

theorem nextPrime_spec {q p : ℕ} (h1 : 23 ≤ q) (h2 : q ≤ 2147155980) (h : Primes.nextPrime q = some p) :
    p.Prime ∧ q < p ∧ ∀ b, b.Prime → q < b → p ≤ b := by
  obtain ⟨p', e, k1, k2, k3⟩ := C06_next_prime q h1 h2
  rw [h] at e
  obtain rfl := Option.some.inj e
  exact ⟨k1, k2, k3⟩

/-- Primes of the modular computations. -/
def Range (p : ℕ) : Prop := p.Prime ∧ 23 ≤ p ∧ p ≤ 1303905347

theorem range_next {q p : ℕ} (h1 : 23 ≤ q) (h2 : q < 1303905347) (h : Primes.nextPrime q = some p) : Range p := by
  obtain ⟨k1, k2, k3⟩ := nextPrime_spec h1 (by omega) h
  exact ⟨k1, by omega, k3 _ prime_1303905347 h2⟩

theorem Range.lt31 {p : ℕ} (h : Range p) : p < 2 ^ 31 := lt_of_le_of_lt h.2.2 (by norm_num)

theorem firstPrime_spec {m p : ℕ} {Z : List (List ((Fin m → ℕ) × ℤ))} (h : FirstPrime Z p) : Range p ∧ isBad p Z = false := by
  obtain ⟨r, h1, h2, h3, h4⟩ := h
  exact ⟨range_next (le_trans (by norm_num) h1) (by omega) h3, h4⟩

theorem stepPrime_spec {q p : ℕ} (h1 : Range q) (h : stepPrime q = some p) : Range p := by
  unfold stepPrime at h
  cases hq : Primes.nextPrime q with
  | none => rw [hq] at h; simp at h
  | some p' =>
    rw [hq] at h
    simp only at h
    obtain ⟨k1, k2, -⟩ := nextPrime_spec h1.2.1 (le_trans h1.2.2 (by norm_num)) hq
    have h23 := h1.2.1
    split_ifs at h with hc
    · exact range_next (by norm_num) (by norm_num) h
    · obtain rfl := Option.some.inj h
      exact ⟨k1, by omega, by omega⟩

theorem nextGood_spec {m p0 q p : ℕ} {Z : List (List ((Fin m → ℕ) × ℤ))} (h : NextGood Z p0 q p) (h1 : Range q) :
    Range p ∧ isBad p Z = false := by
  induction h with
  | here a b c => exact ⟨stepPrime_spec h1 a, b⟩
  | skip a _ _ ih => exact ih (stepPrime_spec h1 a)

/-- C79: every later prime is prime, below `1303905348`, different from the first one and divides no coefficient of the generators. -/
theorem C79_primes {e m p0 q : ℕ} {Z : List (List ((Fin m → ℕ) × ℤ))} {t : Tr m} {gs : List ((ℕ × Option (List (Poly m))) × Bool)}
    (h : Later e Z t p0 q gs) (hq : FirstPrime Z q) :
    ∀ g ∈ gs, g.1.1.Prime ∧ g.1.1 < 1303905348 ∧ g.1.1 ≠ p0 ∧ ∀ f ∈ Z, ∀ t ∈ f, ¬ ((g.1.1 : ℕ) : ℤ) ∣ t.2 := by
  have hne : ∀ {q p : ℕ}, NextGood Z p0 q p → p ≠ p0 := by
    intro q p h
    induction h with
    | here _ _ c => exact c
    | skip _ _ _ ih => exact ih
  have key : ∀ {q gs}, Later e Z t p0 q gs → Range q →
      ∀ g ∈ gs, g.1.1.Prime ∧ g.1.1 < 1303905348 ∧ g.1.1 ≠ p0 ∧ ∀ f ∈ Z, ∀ t ∈ f, ¬ ((g.1.1 : ℕ) : ℤ) ∣ t.2 := by
    intro q gs h
    induction h with
    | nil => intro _ g hg; simp at hg
    | cons a _ _ ih =>
      intro hq g hg
      obtain ⟨hr, hb⟩ := nextGood_spec a hq
      rcases List.mem_cons.mp hg with rfl | hg
      · refine ⟨hr.1, Nat.lt_succ_of_le hr.2.2, hne a, fun f hf t ht hd => ?_⟩
        have := List.any_eq_false.mp hb f hf
        simp only [Bool.not_eq_true] at this
        have := List.any_eq_false.mp this t ht
        simp only [beq_iff_eq] at this
        exact this (Int.emod_eq_zero_of_dvd hd)
      · exact ih hr g hg
  exact key h (firstPrime_spec hq).1

/-! ### The reduced Gröbner basis over the rationals and the primes -/

variable {e n : ℕ}

/-- The reduced Gröbner basis over the rationals, and a number whose prime divisors are excluded. -/
structure Lucky (e n : ℕ) (tss : List (List Text.Mon)) (GQ : Set (MvPolynomial (Fin (e + n)) ℚ)) (U : ℕ → Prop) : Prop where
  fin : GQ.Finite
  gb : IsReducedGroebner (OKind.be e).mo (idealOver ℚ (intGens (e + n) tss)) GQ
  lucky : ∀ (p : ℕ) [Fact p.Prime], U p → (∀ g ∈ GQ, IntegralAt p g) ∧
    IsReducedGroebner (OKind.be e).mo (idealOver (ZMod p) (intGens (e + n) tss)) (reduceMod p '' GQ)
  coef : ∀ (p : ℕ) [Fact p.Prime], U p → ∀ ts ∈ tss, ∀ t ∈ intTerms (e + n) ts, ¬ (p : ℤ) ∣ t.2

theorem not_dvd_terms {p : ℕ} [hp : Fact p.Prime] {ts : List Text.Mon} (h : ∀ t ∈ ts, ¬ (p : ℤ) ∣ t.numer ∧ ¬ (p : ℤ) ∣ t.denom) :
    ∀ t ∈ intTerms n ts, ¬ (p : ℤ) ∣ t.2 := by
  have hpi := Nat.prime_iff_prime_int.mp hp.out
  intro t ht hd
  obtain ⟨u, hu, rfl⟩ := List.mem_map.mp ht
  rcases hpi.dvd_mul.mp hd with hd | hd
  · have h1 : u.denom ∣ (ts.map Text.Mon.denom).prod := List.dvd_prod (List.mem_map_of_mem hu)
    have h2 : (p : ℤ) ∣ (ts.map Text.Mon.denom).prod := hd.trans ⟨u.denom, (Int.ediv_mul_cancel h1).symm⟩
    obtain ⟨v, hv, h3⟩ := (hpi.dvd_prod_iff).mp h2
    obtain ⟨w, hw, rfl⟩ := List.mem_map.mp hv
    exact (h w hw).2 h3
  · exact (h u hu).1 hd

theorem idealOver_mod {p : ℕ} [hp : Fact p.Prime] {tss : List (List Text.Mon)}
    (h : ∀ ts ∈ tss, ∀ t ∈ ts, ¬ (p : ℤ) ∣ t.numer ∧ ¬ (p : ℤ) ∣ t.denom) :
    idealOver (ZMod p) (intGens n tss) = Ideal.span { q | ∃ ts ∈ tss, q = polyMod p n ts } :=
  idealOver_field (ZMod p) fun ts hts t ht h0 => (h ts hts t ht).2 ((ZMod.intCast_zmod_eq_zero_iff_dvd _ _).mp h0)

theorem lucky_exists {tss : List (List Text.Mon)} (hE : ∀ ts ∈ tss, ExpandedQ (e + n) ts) :
    ∃ GQ, Lucky e n tss GQ (LuckyPrime (n := e + n) (OKind.be e).mo tss) := by
  obtain ⟨GQ, h1, h2⟩ := exists_reduced (OKind.be e).mo (idealOver ℚ (intGens (e + n) tss))
  refine ⟨GQ, h1, h2, ?_, ?_⟩
  · intro p hp h
    obtain ⟨h3, h4⟩ := h hp
    rw [idealOver_mod h3]
    exact h4 GQ (by rwa [← idealOver_rat hE])
  · intro p hp h ts hts
    exact not_dvd_terms ((h hp).1 ts hts)

theorem headerQq_eq (names : List (List Char)) (e len : ℕ) : headerQq names e len = Text.basisHeader (names.drop e) len := by
  have h1 : "#Reduced Groebner basis data\n".toList = "#Reduced Groebner basis data".toList ++ ['\n'] := by decide +kernel
  have h2 : "#---\n".toList = "#---".toList ++ ['\n'] := by decide +kernel
  have h3 : "#field characteristic: 0\n".toList = "#field characteristic: 0".toList ++ ['\n'] := by decide +kernel
  have h4 : "#monomial order:       graded reverse lexicographical\n".toList = "#monomial order:       graded reverse lexicographical".toList ++ ['\n'] := by
    decide +kernel
  have h5 : (if len = 1 then "#length of basis:      1 element\n".toList
      else "#length of basis:      ".toList ++ Nat.toDigits 10 len ++ " elements sorted by increasing leading monomials\n".toList) =
      "#length of basis:      ".toList ++ (Text.elementsText len).toList ++ ['\n'] := by
    unfold Text.elementsText
    split
    · rename_i h
      subst h
      decide +kernel
    · rename_i h
      have h6 : " elements sorted by increasing leading monomials\n".toList = " elements sorted by increasing leading monomials".toList ++ ['\n'] := by
        decide +kernel
      split
      · exact absurd rfl h
      · rw [h6, String.toList_append]
        simp only [List.append_assoc]
        rw [show (toString len).toList = Nat.toDigits 10 len from Nat.toList_repr]
  unfold headerQq Text.basisHeader
  rw [h5, h1, h2, h3, h4]
  simp only [List.map_cons, List.map_nil, List.flatten_cons, List.flatten_nil, String.toList_append, String.toList_ofList, List.append_assoc, List.append_nil]

theorem lucky_all {n : ℕ} (m : MonomialOrder (Fin n)) {tss : List (List Text.Mon)} (hE : ∀ ts ∈ tss, ExpandedQ n ts) :
    ∃ N : ℤ, N ≠ 0 ∧ ∀ p : ℕ, ¬ (p : ℤ) ∣ N → LuckyPrime m tss p := by
  obtain ⟨GQ, h1, h2⟩ := exists_reduced m (idealOver ℚ (intGens n tss))
  obtain ⟨N, h3, h4⟩ := lucky_cofinite h1 h2
  refine ⟨N * ((tss.flatMap fun ts => ts.flatMap fun t => [t.numer, t.denom]).prod), mul_ne_zero h3 ?_, ?_⟩
  · rw [Ne, List.prod_eq_zero_iff]
    intro h
    obtain ⟨ts, hts, h⟩ := List.mem_flatMap.mp h
    obtain ⟨t, ht, h⟩ := List.mem_flatMap.mp h
    simp only [List.mem_cons, List.not_mem_nil, or_false] at h
    rcases h with h | h
    · exact (hE ts hts).numer t ht h.symm
    · exact (hE ts hts).denom t ht h.symm
  · intro p hp hf
    have hc : ∀ ts ∈ tss, ∀ t ∈ ts, ¬ (p : ℤ) ∣ t.numer ∧ ¬ (p : ℤ) ∣ t.denom := by
      intro ts hts t ht
      constructor <;> intro hd
      · exact hp (Dvd.dvd.mul_left (hd.trans (List.dvd_prod (List.mem_flatMap.mpr ⟨ts, hts, List.mem_flatMap.mpr ⟨t, ht, by simp⟩⟩))) _)
      · exact hp (Dvd.dvd.mul_left (hd.trans (List.dvd_prod (List.mem_flatMap.mpr ⟨ts, hts, List.mem_flatMap.mpr ⟨t, ht, by simp⟩⟩))) _)
    refine ⟨hc, fun G hG => ?_⟩
    rw [← idealOver_rat hE] at hG
    obtain rfl := reduced_unique h2 hG
    rw [← idealOver_mod hc]
    exact h4 p fun h => hp (h.mul_right _)

/-- **C79**: for every input file over the rationals all primes but the divisors of some integer are lucky. -/
theorem C79_lucky {f : File} {names : List (List Char)} {tss : List (List Text.Mon)} (h : InputOkQ f names tss) (e n : ℕ)
    (hn : names.length = e + n) :
    ∃ N : ℤ, N ≠ 0 ∧ ∀ p : ℕ, ¬ (p : ℤ) ∣ N → LuckyPrime (n := e + n) (OKind.be e).mo tss p := by
  exact lucky_all (n := e + n) (OKind.be e).mo (hn ▸ h.expanded)

/-- What a computation modulo `p` delivers. -/
structure ModOk (e n : ℕ) (tss : List (List Text.Mon)) (GQ : Set (MvPolynomial (Fin (e + n)) ℚ)) (p : ℕ) (G : List (Poly (e + n))) :
    Prop where
  prime : p.Prime
  gb : have : Fact p.Prime := ⟨prime⟩; ModGb e p (idealOver (ZMod p) (intGens (e + n) tss)) G
  image : have : Fact p.Prime := ⟨prime⟩; { g | ∃ f ∈ G, g = toMv p f } = reduceMod p '' GQ

/-- The input modulo a prime. -/
structure FOk (e n : ℕ) (tss : List (List Text.Mon)) (Z : List (List ((Fin (e + n) → ℕ) × ℤ))) (C : F4.Cfg (e + n)) (F : List (Poly (e + n))) : Prop where
  cfg : CfgOk C
  ord : C.ord = ordKind e
  ok : ∀ f ∈ F, PolyOk C.ord C.p f
  leads : F.map F4.lead = Z.map fun z => (z.head?.map Prod.fst).getD 0
  idl : have : Fact C.p.Prime := ⟨cfg.prime⟩; Ideal.span { g | ∃ f ∈ F, g = toMv C.p f } = idealOver (ZMod C.p) (intGens (e + n) tss)

theorem fOk_of {tss tss' : List (List Text.Mon)} (hne : ∀ ts ∈ tss, ts ≠ []) {GQ : Set (MvPolynomial (Fin (e + n)) ℚ)} {U : ℕ → Prop}
    (hL : Lucky e n tss GQ U) {Z : List (List ((Fin (e + n) → ℕ) × ℤ))} (hperm : tss'.Perm tss) (hZ : List.Forall₂ (GenOf e) tss' Z)
    {C : F4.Cfg (e + n)} (hS : Sorts C) (hord : C.ord = ordKind e) (hp : Range C.p) (hN : U C.p) (hb : isBad C.p Z = false)
    {F : List (Poly (e + n))} (hF : modGens C.p Z = some F) : FOk e n tss Z C F := by
  have hf : Fact C.p.Prime := ⟨hp.1⟩
  obtain ⟨F', e1, h1⟩ := modGens_spec hp.1 hp.lt31 hZ hb
  rw [hF] at e1
  obtain rfl := Option.some.inj e1
  refine ⟨EndToEnd.Run_cfg hS hp.1 hp.lt31, hord, ?_, ?_, ?_⟩
  · intro f hf
    obtain ⟨i, hi, rfl⟩ := List.mem_iff_getElem.mp hf
    have := (List.forall₂_iff_get.mp h1).2 i (by rw [h1.length_eq]; exact hi) hi
    rw [hord]
    exact this.1
  · clear * - h1
    induction h1 with
    | nil => rfl
    | @cons z f Z F h1 h2 ih =>
      rw [List.map_cons, List.map_cons, ih]
      congr 1
      unfold F4.lead
      rw [← List.head?_map, ← List.head?_map, h1.2.1]
  · refine idl_eq hperm hZ ?_ h1
    intro ts hts
    obtain ⟨t, ts', rfl⟩ := List.exists_cons_of_ne_nil (hne ts hts)
    exact ⟨_, List.mem_cons_self, hL.coef C.p hN _ hts _ List.mem_cons_self⟩

/-- A trace that was recorded modulo a prime that is not excluded. -/
def TrOk (e n : ℕ) (tss : List (List Text.Mon)) (U : ℕ → Prop) (Z : List (List ((Fin (e + n) → ℕ) × ℤ))) (t : Tr (e + n)) : Prop :=
  ∃ C F G, FOk e n tss Z C F ∧ U C.p ∧ Learn C F t G

theorem initials_reduce {tss : List (List Text.Mon)} {GQ : Set (MvPolynomial (Fin (e + n)) ℚ)} {U : ℕ → Prop} (hL : Lucky e n tss GQ U)
    (p : ℕ) [hp : Fact p.Prime] (hN : U p) :
    initials (OKind.be e).mo (idealOver (ZMod p) (intGens (e + n) tss)) = { d | ∃ g ∈ GQ, (OKind.be e).mo.degree g ≤ d } := by
  rw [initials_of_groebner (hL.lucky p hN).2.1]
  ext d
  constructor
  · rintro ⟨_, ⟨g, hg, rfl⟩, h0, hd⟩
    exact ⟨g, hg, by rwa [(reduce_monic p (hL.gb.2.1 g hg)).1] at hd⟩
  · rintro ⟨g, hg, hd⟩
    obtain ⟨h1, h2, -⟩ := reduce_monic p (hL.gb.2.1 g hg)
    refine ⟨_, ⟨g, hg, rfl⟩, ?_, by rwa [h1]⟩
    rintro h0
    rw [h0, MonomialOrder.leadingCoeff_zero] at h2
    exact zero_ne_one h2

theorem learn_ok {tss : List (List Text.Mon)} {GQ : Set (MvPolynomial (Fin (e + n)) ℚ)} {U : ℕ → Prop} (hL : Lucky e n tss GQ U)
    {Z : List (List ((Fin (e + n) → ℕ) × ℤ))} {C : F4.Cfg (e + n)} {F : List (Poly (e + n))} (hF : FOk e n tss Z C F)
    (hN : U C.p) {t : Tr (e + n)} {G : List (Poly (e + n))} (h : Learn C F t G) : ModOk e n tss GQ C.p G := by
  have hf : Fact C.p.Prime := ⟨hF.cfg.prime⟩
  obtain ⟨h1, h2, h3⟩ := (C66_learn hF.cfg hF.ok).2 t G h
  have hi := hF.idl
  simp only at hi
  simp only [idl] at h1
  rw [hi, hF.ord, ordKind_mo] at h1
  rw [hF.ord] at h2 h3
  refine ⟨hF.cfg.prime, ⟨⟨hF.cfg.prime, lt_trans hF.cfg.p31 (by norm_num)⟩, fun f hf => ordKind_polyOk (h2 f hf), ?_, h1⟩, ?_⟩
  · rwa [ordKind_lt] at h3
  · exact reduced_unique h1 (hL.lucky C.p hN).2

theorem apply_ok {tss : List (List Text.Mon)} {GQ : Set (MvPolynomial (Fin (e + n)) ℚ)} {U : ℕ → Prop} (hL : Lucky e n tss GQ U)
    {Z : List (List ((Fin (e + n) → ℕ) × ℤ))} {C : F4.Cfg (e + n)} {F : List (Poly (e + n))} (hF : FOk e n tss Z C F)
    (hN : U C.p) {t : Tr (e + n)} (ht : TrOk e n tss U Z t) {G : List (Poly (e + n))} (h : Apply C F t (some G)) :
    ModOk e n tss GQ C.p G := by
  have hf : Fact C.p.Prime := ⟨hF.cfg.prime⟩
  obtain ⟨C0, F0, G0, hF0, hN0, h0⟩ := ht
  have hf0 : Fact C0.p.Prime := ⟨hF0.cfg.prime⟩
  have hl : F.map F4.lead = F0.map F4.lead := by rw [hF.leads, hF0.leads]
  have hord : C.ord = C0.ord := by rw [hF.ord, hF0.ord]
  obtain ⟨s1, s2⟩ := C66_sound hF0.cfg hF.cfg hord hF0.ok hF.ok hl h0 h
  have hi := hF.idl
  have hi0 := hF0.idl
  have h1 := (C66_iff hF0.cfg hF.cfg hord hF0.ok hF.ok hl h0 h).mpr (by
    simp only at hi hi0
    simp only [idl]
    rw [hi, hi0, hF0.ord, ordKind_mo, initials_reduce hL _ hN, initials_reduce hL _ hN0])
  simp only at hi
  simp only [idl] at h1
  rw [hi, hF0.ord, ordKind_mo] at h1
  have h3 := (learn_ok hL hF0 hN0 h0).gb.sorted
  refine ⟨hF.cfg.prime, ⟨⟨hF.cfg.prime, lt_trans hF.cfg.p31 (by norm_num)⟩, fun f hf => ordKind_polyOk ?_, ?_, h1⟩, ?_⟩
  · rw [← hF0.ord]
    exact (s2 f hf).1
  · rw [← List.pairwise_map (f := F4.lead) (R := Be e)] at h3 ⊢
    rw [s1]
    exact h3
  · exact reduced_unique h1 (hL.lucky C.p hN).2

section
variable {tss tss' : List (List Text.Mon)} {GQ : Set (MvPolynomial (Fin (e + n)) ℚ)} {U : ℕ → Prop} {Z : List (List ((Fin (e + n) → ℕ) × ℤ))}

theorem first_ok (hne : ∀ ts ∈ tss, ts ≠ []) (hL : Lucky e n tss GQ U) (hperm : tss'.Perm tss) (hZ : List.Forall₂ (GenOf e) tss' Z)
    {st : Option (Tr (e + n))} (hst : ∀ t, st = some t → TrOk e n tss U Z t) {p : ℕ} (hp : FirstPrime Z p) (hN : U p)
    {tr : Tr (e + n)} {G : List (Poly (e + n))} (h : First e Z st p tr G) : ModOk e n tss GQ p G ∧ TrOk e n tss U Z tr := by
  obtain ⟨h1, h2⟩ := firstPrime_spec hp
  obtain ⟨C, F, e1, e2, rfl, e4, e5⟩ := h
  have hF := fOk_of hne hL hperm hZ e4 e2 h1 hN h2 e1
  cases st with
  | none => exact ⟨learn_ok hL hF hN e5, C, F, G, hF, hN, e5⟩
  | some t =>
    obtain ⟨rfl, e5⟩ := e5
    exact ⟨apply_ok hL hF hN (hst _ rfl) e5, hst _ rfl⟩

theorem later_ok (hne : ∀ ts ∈ tss, ts ≠ []) (hL : Lucky e n tss GQ U) (hperm : tss'.Perm tss) (hZ : List.Forall₂ (GenOf e) tss' Z)
    {t : Tr (e + n)} (ht : TrOk e n tss U Z t) {p0 q : ℕ} {gs : List ((ℕ × Option (List (Poly (e + n)))) × Bool)}
    (h : Later e Z t p0 q gs) (hq : Range q) (hN : ∀ g ∈ gs, U g.1.1) :
    ∀ g ∈ gs, ∀ G, g.1.2 = some G → ModOk e n tss GQ g.1.1 G := by
  induction h with
  | nil => simp
  | @cons q p r slow gs h1 h2 h3 ih =>
    obtain ⟨k1, k2⟩ := nextGood_spec h1 hq
    intro g hg G hG
    rcases List.mem_cons.mp hg with rfl | hg
    · simp only at hG
      subst hG
      obtain ⟨C, F, e1, e2, rfl, e4, e5⟩ := h2
      have hN' := hN _ List.mem_cons_self
      exact apply_ok hL (fOk_of hne hL hperm hZ e4 e2 k1 hN' k2 e1) hN' ht e5
    · exact ih k1 (fun g hg => hN g (List.mem_cons_of_mem _ hg)) g hg G hG

/-- The part of the basis in the variables that are not eliminated. -/
structure Basis (e n : ℕ) (GQ : Set (MvPolynomial (Fin (e + n)) ℚ)) (bs : List (MvPolynomial (Fin n) ℚ)) : Prop where
  mem : ∀ b, b ∈ bs ↔ rename (Fin.natAdd e) b ∈ GQ
  sorted : bs.Pairwise fun a b => OKind.drl.mo.toSyn (OKind.drl.mo.degree a) < OKind.drl.mo.toSyn (OKind.drl.mo.degree b)
  monic : ∀ b ∈ bs, OKind.drl.mo.leadingCoeff b = 1

theorem basis_exists (hL : Lucky e n tss GQ U) : ∃ bs, Basis e n GQ bs ∧ IsReducedGroebner OKind.drl.mo
    ((idealOver ℚ (intGens (e + n) tss)).comap (rename (Fin.natAdd e)).toRingHom) { b | b ∈ bs } := by
  have h := elim_reduced_field hL.gb
  obtain ⟨bs, h1, h2⟩ := sorted_basis (Set.Finite.preimage (rename_injective _ (Fin.natAdd_injective n e)).injOn hL.fin) h
  replace h1 : { b | b ∈ bs } = { g | rename (Fin.natAdd e) g ∈ GQ } := h1
  rw [← h1] at h
  exact ⟨bs, ⟨fun b => by rw [← Set.mem_ofPred_eq (p := fun b => b ∈ bs), h1]; rfl, h2, h.2.1⟩, h⟩

theorem eq_of_degree {bs : List (MvPolynomial (Fin n) ℚ)} (hB : Basis e n GQ bs) {a b : MvPolynomial (Fin n) ℚ} (ha : a ∈ bs) (hb : b ∈ bs)
    (h : OKind.drl.mo.degree a = OKind.drl.mo.degree b) : a = b := by
  obtain ⟨i, hi, rfl⟩ := List.mem_iff_getElem.mp ha
  obtain ⟨j, hj, rfl⟩ := List.mem_iff_getElem.mp hb
  rcases lt_trichotomy i j with hij | rfl | hij
  · exact absurd (List.pairwise_iff_getElem.mp hB.sorted i j hi hj hij) (by rw [h]; exact lt_irrefl _)
  · rfl
  · exact absurd (List.pairwise_iff_getElem.mp hB.sorted j i hj hi hij) (by rw [h]; exact lt_irrefl _)

/-- Every computation modulo a prime that is not excluded delivers the image of the basis over the rationals. -/
theorem elim_image (hL : Lucky e n tss GQ U) {bs : List (MvPolynomial (Fin n) ℚ)} (hB : Basis e n GQ bs) {p : ℕ} [hp : Fact p.Prime] (hN : U p)
    {G : List (Poly (e + n))} (h : ModOk e n tss GQ p G) :
    List.Forall₂ (fun b f => OKind.drl.mo.degree b = fs (F4.lead f) ∧ toMv p f = reduceMod p b) bs (elimPart e G) := by
  have hinj := rename_injective (R := ZMod p) _ (Fin.natAdd_injective n e)
  obtain ⟨h1, h2, -⟩ := C63_elimination h.gb
  have hset : { g | ∃ f ∈ elimPart e G, g = toMv p f } = reduceMod p '' { b | b ∈ bs } := by
    have h3 := reduced_unique h1 (elim_reduced_field (hL.lucky p hN).2)
    rw [h3]
    ext g
    constructor
    · rintro ⟨g', hg', hg⟩
      obtain ⟨d1, d2, -⟩ := reduce_monic p (hL.gb.2.1 g' hg')
      have hg0 : g ≠ 0 := by
        rintro rfl
        rw [map_zero] at hg
        rw [hg, MonomialOrder.leadingCoeff_zero] at d2
        exact zero_ne_one d2
      obtain ⟨m, hm⟩ := fs_surj (OKind.drl.mo.degree g)
      have hr := degree_rename e hg0 hm.symm
      obtain ⟨b, rfl⟩ := degree_free (m := embed e m) (by rw [← d1, hg]; exact hr) (free_embed e m)
      refine ⟨b, (hB.mem b).mpr hg', hinj ?_⟩
      rw [← reduceMod_rename]
      exact hg
    · rintro ⟨b, hb, rfl⟩
      exact ⟨_, (hB.mem b).mp hb, (reduceMod_rename e p b)⟩
  have hdeg : ∀ f ∈ elimPart e G, ∃ b ∈ bs, OKind.drl.mo.degree b = fs (F4.lead f) ∧ toMv p f = reduceMod p b := by
    intro f hf
    have : toMv p f ∈ reduceMod p '' { b | b ∈ bs } := hset ▸ ⟨f, hf, rfl⟩
    obtain ⟨b, hb, hbf⟩ := this
    refine ⟨b, hb, ?_, hbf.symm⟩
    rw [← (reduce_monic p (hB.monic b hb)).1, hbf]
    exact (h.gb.elim_ok f hf).degree
  have hleads : bs.map OKind.drl.mo.degree = (elimPart e G).map fun f => fs (F4.lead f) := by
    have hs1 : (bs.map OKind.drl.mo.degree).Pairwise fun a b => OKind.drl.mo.toSyn a < OKind.drl.mo.toSyn b :=
      List.pairwise_map.mpr hB.sorted
    have hs2 : ((elimPart e G).map fun f => fs (F4.lead f)).Pairwise fun a b => OKind.drl.mo.toSyn a < OKind.drl.mo.toSyn b :=
      List.pairwise_map.mpr (h2.imp fun {a b} h => (lt_iff .drl _ _).mpr h)
    have hnd : ∀ {l : List (Fin n →₀ ℕ)}, (l.Pairwise fun a b => OKind.drl.mo.toSyn a < OKind.drl.mo.toSyn b) → l.Nodup :=
      fun h => h.imp fun {a b} hab heq => by rw [heq] at hab; exact lt_irrefl _ hab
    refine List.Perm.eq_of_pairwise (fun a b _ _ h1 h2 => absurd h1 (lt_asymm h2)) hs1 hs2 ?_
    rw [List.perm_ext_iff_of_nodup (hnd hs1) (hnd hs2)]
    intro d
    rw [List.mem_map, List.mem_map]
    constructor
    · rintro ⟨b, hb, rfl⟩
      have : reduceMod p b ∈ { g | ∃ f ∈ elimPart e G, g = toMv p f } := hset ▸ ⟨b, hb, rfl⟩
      obtain ⟨f, hf, hbf⟩ := this
      refine ⟨f, hf, ?_⟩
      rw [← (reduce_monic p (hB.monic b hb)).1, hbf]
      exact (h.gb.elim_ok f hf).degree.symm
    · rintro ⟨f, hf, rfl⟩
      obtain ⟨b, hb, h1, -⟩ := hdeg f hf
      exact ⟨b, hb, h1⟩
  have hlen : bs.length = (elimPart e G).length := by simpa using congrArg List.length hleads
  rw [List.forall₂_iff_get]
  refine ⟨hlen, fun i hi hi' => ?_⟩
  have hd : OKind.drl.mo.degree (bs[i]) = fs (F4.lead (elimPart e G)[i]) := by
    have := congrArg (fun l => l[i]?) hleads
    simpa [List.getElem?_eq_getElem hi, List.getElem?_eq_getElem hi'] using this
  obtain ⟨b, hb, h1, h3⟩ := hdeg _ (List.getElem_mem hi')
  obtain rfl := eq_of_degree hB hb (List.getElem_mem hi) (h1.trans hd.symm)
  exact ⟨hd, h3⟩

end

/-! ### The printed polynomials -/

/-- The separator of the printed list and its frame, C70. -/
def basisText (lines : List (List Char)) : List Char := '[' :: (List.intercalate [',', ' ', '\n'] lines ++ ['\n']) ++ [']', ':', '\n']

/-- The text of the terms `ts` is printed for the element `b` of the basis over the rationals.  The first term has the leading
monomial of `b` and a positive coefficient `a`; coefficients are integers.  Modulo some of the primes in `us` the polynomial is
`a` times `b`; it is `a` times `b` unless a coefficient of the difference is at least as large as the product of these primes. -/
structure PrintedFor (us : List ℕ) (b : MvPolynomial (Fin n) ℚ) (ts : List Text.Mon) : Prop where
  coeffs : ∀ t ∈ ts, t.denom = 1 ∧ t.numer ≠ 0
  first : ∃ t0 tl, ts = t0 :: tl ∧ OKind.drl.mo.degree b = fs (t0.vec n) ∧ 0 < t0.numer ∧
    ∃ S : Finset ℕ, S.Nonempty ∧ (∀ p ∈ S, p ∈ us) ∧
      (∀ (p : ℕ) [Fact p.Prime], p ∈ S → IntegralAt p b ∧ IntegralAt p (polyQ n ts) ∧
        reduceMod p (polyQ n ts) = C ((t0.numer : ℤ) : ZMod p) * reduceMod p b) ∧
      (polyQ n ts = C ((t0.numer : ℤ) : ℚ) * b ∨
        ∃ u, ((∏ p ∈ S, p : ℕ) : ℤ) ≤ |((polyQ n ts).coeff u).num * (b.coeff u).den - t0.numer * (b.coeff u).num|)

theorem polyQ_rows (ts : List Text.Mon) : polyQ n ts = ((qqPoly n ts).map fun r =>
    monomial (fs fun i : Fin n => (r.2.getD i.val 0).toNat) ((r.1.1 : ℚ) / (r.1.2 : ℚ))).sum := by
  unfold polyQ qqPoly
  rw [List.map_map]
  congr 1
  apply List.map_congr_left
  intro t _
  simp only [Function.comp_apply, Text.Mon.polyQ]
  congr 2
  ext i
  simp [expoRow, Text.Mon.vec]

theorem polyQ_export {ldm : Fin n → ℕ} {mb : List (Fin n → ℕ)} {P : LiftGB.MPoly} (h : PrintQq.Printable ldm mb P)
    (hq : ∀ l < P.len, P.qd l = 1) : rename (Fin.natAdd e) (polyQ n (PrintQq.qMons n ldm mb P)) =
      MvPolynomial.map (Int.castRingHom ℚ) (termsMv (exportTerms e ldm mb P)) := by
  have hfree : ∀ t ∈ exportTerms e ldm mb P, Free e t.1 := by
    intro t ht
    unfold exportTerms at ht
    rcases List.mem_cons.mp ht with rfl | ht
    · exact free_embed e _
    · obtain ⟨i, -, rfl⟩ := List.mem_map.mp ht
      exact free_embed e _
  rw [polyQ_rows, PrintQq.qqPoly_qMons h, qRead_export e hq, termsMv, map_list_sum, map_list_sum, List.map_map, List.map_map, List.map_map]
  congr 1
  apply List.map_congr_left
  intro t ht
  have hm : (fun i : Fin n => ((readRow e t.1).getD i.val 0).toNat) = fun i => t.1 (Fin.natAdd e i) := by
    funext i
    simp [readRow, List.getD_eq_getElem?_getD]
  simp only [Function.comp_apply, rename_monomial, map_monomial]
  rw [hm, ← fs_embed, embed_drop (hfree t ht)]
  simp

theorem reduceMod_int (p : ℕ) [hp : Fact p.Prime] (P : MvPolynomial (Fin n) ℤ) :
    reduceMod p (MvPolynomial.map (Int.castRingHom ℚ) P) = MvPolynomial.map (Int.castRingHom (ZMod p)) P := by
  ext u
  rw [coeff_reduceMod, coeff_map, coeff_map]
  simp

/-- The numerators of a difference are divisible by primes modulo which it vanishes. -/
theorem exact_or_large {q b : MvPolynomial (Fin n) ℚ} {a : ℤ} (hq : ∀ u, (q.coeff u).den = 1) (S : Finset ℕ) (hS : ∀ p ∈ S, p.Prime)
    (h : ∀ (p : ℕ) [Fact p.Prime], p ∈ S → IntegralAt p b ∧ reduceMod p q = C (a : ZMod p) * reduceMod p b) :
    q = C (a : ℚ) * b ∨ ∃ u, ((∏ p ∈ S, p : ℕ) : ℤ) ≤ |(q.coeff u).num * (b.coeff u).den - a * (b.coeff u).num| := by
  by_contra hno
  push Not at hno
  obtain ⟨h1, h2⟩ := hno
  apply h1
  ext u
  have hd : (∏ p ∈ S, p) ∣ ((q.coeff u).num * (b.coeff u).den - a * (b.coeff u).num).natAbs := by
    apply Finset.prod_primes_dvd
    · intro p hp
      exact (hS p hp).prime
    · intro p hp
      have hF : Fact p.Prime := ⟨hS p hp⟩
      obtain ⟨k1, k2⟩ := h p hp
      have k3 := congrArg (coeff u) k2
      rw [coeff_C_mul, coeff_reduceMod, coeff_reduceMod, hq u] at k3
      have k4 : ((b.coeff u).den : ZMod p) ≠ 0 := by
        rw [Ne, ZMod.natCast_eq_zero_iff]
        exact k1 u
      rw [Nat.cast_one, div_one, ← mul_div_assoc, eq_div_iff k4] at k3
      rw [← Int.natCast_dvd, ← ZMod.intCast_zmod_eq_zero_iff_dvd]
      push_cast
      rw [k3, sub_self]
  have h0 : (q.coeff u).num * (b.coeff u).den - a * (b.coeff u).num = 0 := by
    by_contra h0
    have h3 := Nat.le_of_dvd (Int.natAbs_pos.mpr h0) hd
    have h4 := h2 u
    rw [Int.abs_eq_natAbs] at h4
    omega
  rw [coeff_C_mul]
  have e1 : q.coeff u = ((q.coeff u).num : ℚ) := by
    conv_lhs => rw [← Rat.num_div_den (q.coeff u), hq u]
    simp
  have e2 : b.coeff u = ((b.coeff u).num : ℚ) / ((b.coeff u).den : ℚ) := (Rat.num_div_den _).symm
  have hden : ((b.coeff u).den : ℚ) ≠ 0 := by exact_mod_cast (b.coeff u).den_ne_zero
  rw [e1, e2, ← mul_div_assoc, eq_div_iff hden]
  have := sub_eq_zero.mp h0
  exact_mod_cast this

/-! ### The calls -/

section
variable {tss tss' : List (List Text.Mon)} {GQ : Set (MvPolynomial (Fin (e + n)) ℚ)} {U : ℕ → Prop} {Z : List (List ((Fin (e + n) → ℕ) × ℤ))}

theorem elim_leads {p : ℕ} {I : Ideal (MvPolynomial (Fin (e + n)) (ZMod p))} {G : List (Poly (e + n))} (h : ModGb e p I G) :
    keptLeads e G = (elimPart e G).map F4.lead ∧ kept e G = keepFree e G := by
  have hk : kept e G = keepFree e G := by
    unfold kept
    rw [(C63_elimination h).2.2, h.embed]
  refine ⟨?_, hk⟩
  unfold keptLeads
  rw [hk, ← h.embed, List.map_map]
  apply List.map_congr_left
  intro f hf
  obtain ⟨r, hr⟩ := (h.elim_ok f hf).head
  simp only [Function.comp]
  rw [lead_embed e (by rw [hr]; simp), drop_embed]

/-- A constant in the basis is its only element. -/
theorem elim_unit {p : ℕ} {I : Ideal (MvPolynomial (Fin (e + n)) (ZMod p))} {G : List (Poly (e + n))} (h : ModGb e p I G)
    {f : Poly n} (hf : f ∈ elimPart e G) (h0 : F4.lead f = 0) : G.length = 1 ∧ F4.lead (G.getD 0 []) = 0 := by
  have hp : Fact p.Prime := ⟨h.prime.1⟩
  obtain ⟨r, hr⟩ := (h.elim_ok f hf).head
  have hg : embedPoly e f ∈ G := by
    have : embedPoly e f ∈ keepFree e G := by
      rw [← h.embed]; exact List.mem_map_of_mem hf
    exact (mem_keepFree.mp this).1
  have hl : F4.lead (embedPoly e f) = 0 := by
    rw [lead_embed e (by rw [hr]; simp), h0]
    funext i
    refine Fin.addCases (fun j => ?_) (fun j => ?_) i <;> simp [embed]
  generalize embedPoly e f = g at hg hl
  obtain ⟨i, hi, rfl⟩ := List.mem_iff_getElem.mp hg
  have hirr : ∀ j (hj : j < G.length), j = i := by
    intro j hj
    by_contra hne
    have hgb := h.gb.2.2 (toMv p G[j]) ⟨_, List.getElem_mem hj, rfl⟩ (toMv p G[i]) ⟨_, hg, rfl⟩ (by
      intro heq
      have h1 := (h.ok _ (List.getElem_mem hj)).degree
      rw [heq, (h.ok _ hg).degree] at h1
      have h1 := fs_inj.mp h1
      rcases lt_or_gt_of_ne hne with hij | hij
      · have := List.pairwise_iff_getElem.mp h.sorted j i hj hi hij
        rw [h1] at this
        exact (OKind.be e).adm.irrefl _ this
      · have := List.pairwise_iff_getElem.mp h.sorted i j hi hj hij
        rw [h1] at this
        exact (OKind.be e).adm.irrefl _ this)
    have hne0 : toMv p G[j] ≠ 0 := by
      intro h0
      have := h.gb.2.1 (toMv p G[j]) ⟨_, List.getElem_mem hj, rfl⟩
      rw [h0, MonomialOrder.leadingCoeff_zero] at this
      exact zero_ne_one this
    obtain ⟨u, hu⟩ := MvPolynomial.support_nonempty.mpr hne0
    apply hgb u hu
    rw [(h.ok _ hg).degree, hl]
    intro k
    exact Nat.zero_le _
  have hi0 := hirr 0 (by omega)
  subst hi0
  have hlen : G.length = 1 := by
    by_contra hne
    have := hirr 1 (by omega)
    omega
  refine ⟨hlen, ?_⟩
  rw [List.getD_eq_getElem _ _ hi]
  exact hl

theorem fs_zero' : fs (0 : Fin n → ℕ) = 0 := by
  ext i
  simp

theorem enlarged_ne {lms mb : List (Fin n → ℕ)} (h : enlarged lms = .done mb) : lms ≠ [] := by
  rintro rfl
  simp [enlarged] at h

/-- The arrays that are exported for polynomials written as terms, all coefficients integers: the lengths and the terms. -/
def exported (e : ℕ) (tls : List (List Text.Mon)) : List ℕ × List ((Fin (e + n) → ℕ) × ℤ) :=
  (tls.map List.length, tls.flatMap fun ts => ts.map fun t => (embed e (t.vec n), t.numer))

/-- The printed unit ideal. -/
theorem unit_text (hn : 1 ≤ n) (hL : Lucky e n tss GQ U) {bs : List (MvPolynomial (Fin n) ℚ)} (hB : Basis e n GQ bs)
    {us : List ℕ} {p : ℕ} (hN : U p) (hus : p ∈ us)
    {G : List (Poly (e + n))} (h : ModOk e n tss GQ p G) (h1 : G.length = 1) (h2 : F4.lead (G.getD 0 []) = 0) {mb : List (Fin n → ℕ)}
    (hmb : enlarged (keptLeads e G) = .done mb) : bs.length = 1 ∧ (keptLeads e G).length = 1 ∧
    ∃ tls, (∀ names : List (List Char), PrintQq.displayBasis names e (keptLeads e G) mb (keptLeads e G).length
        (fun k => ⟨lensOf (keptLeads e G) mb k, fun _ _ => 0, fun _ => 0, fun _ => 0, fun _ => 0, 1⟩) =
      basisText (tls.map (Text.line (names.drop e)))) ∧
      exportQq e (keptLeads e G) mb (keptLeads e G).length
        (fun k => ⟨lensOf (keptLeads e G) mb k, fun _ _ => 0, fun _ => 0, fun _ => 0, fun _ => 0, 1⟩) = some (exported e tls) ∧
      List.Forall₂ (PrintedFor us) bs tls := by
  have hp : Fact p.Prime := ⟨h.prime⟩
  obtain ⟨g, rfl⟩ := List.length_eq_one_iff.mp h1
  replace h2 : F4.lead g = 0 := h2
  have hfree : Free e (F4.lead g) := by rw [h2]; intro i; rfl
  have hkf : keepFree e [g] = [g] := by
    unfold keepFree
    rw [List.filter_cons_of_pos (by rw [decide_eq_true_eq, ← free_iff_sum]; exact hfree), List.filter_nil]
  obtain ⟨k1, k2⟩ := elim_leads h.gb
  have hkl : keptLeads e [g] = [0] := by
    unfold keptLeads
    rw [k2, hkf, List.map_cons, List.map_nil, h2]
    rfl
  have hF := elim_image hL hB hN h
  have hel : ∃ f, elimPart e [g] = [f] := ⟨_, by unfold elimPart; rw [hkf]; rfl⟩
  obtain ⟨f, hel⟩ := hel
  rw [hel] at hF k1
  have hlf : F4.lead f = 0 := by
    rw [hkl] at k1
    simpa using k1.symm
  obtain ⟨b, rfl⟩ : ∃ b, bs = [b] := List.length_eq_one_iff.mp (by simpa using hF.length_eq)
  obtain ⟨hb1, hb2⟩ := (List.forall₂_cons.mp hF).1
  have hb : b = 1 := by
    have hdeg : OKind.drl.mo.degree b = 0 := by
      rw [hb1, hlf, fs_zero']
    rw [MonomialOrder.degree_eq_zero_iff] at hdeg
    rw [hdeg, hB.monic b List.mem_cons_self, map_one]
  subst hb
  rw [hkl] at hmb ⊢
  have hmb0 : mb = [] := by
    obtain ⟨L, hL1, -, hL3⟩ := enlarged_spec hn (lms := [(0 : Fin n → ℕ)]) (l := 0) rfl
    rw [hmb] at hL1
    cases hL1
    apply List.eq_nil_iff_forall_not_mem.mpr
    intro m hm
    exact ((hL3 m).mp hm).1 0 List.mem_cons_self fun _ => Nat.zero_le _
  subst hmb0
  refine ⟨rfl, rfl, [[⟨false, some ⟨['1'], none⟩, []⟩]], fun names => ?_, ?_, List.Forall₂.cons ?_ .nil⟩
  · rw [show ([0] : List (Fin n → ℕ)).length = 1 from rfl, (C70_unit (by rfl) []).1]
    rfl
  · rw [exportQq_spec]
    rfl
  · have hpq : polyQ n [⟨false, some ⟨['1'], none⟩, []⟩] = 1 := by
      have hv : (Text.Mon.vec n ⟨false, some ⟨['1'], none⟩, []⟩) = 0 := by
        funext i
        rfl
      have hnum : Text.Mon.numer ⟨false, some ⟨['1'], none⟩, []⟩ = 1 := by decide
      have hden : Text.Mon.denom ⟨false, some ⟨['1'], none⟩, []⟩ = 1 := by decide
      simp only [polyQ, List.map_cons, List.map_nil, List.sum_cons, List.sum_nil, add_zero, Text.Mon.polyQ, hv, hnum, hden]
      rw [show Finsupp.equivFunOnFinite.symm (0 : Fin n → ℕ) = fs 0 from rfl, fs_zero']
      norm_num
    have hint : IntegralAt p (1 : MvPolynomial (Fin n) ℚ) := by
      intro u
      rw [coeff_one]
      have := hp.out.one_lt
      split_ifs <;> simp <;> omega
    refine ⟨?_, _, _, rfl, ?_, by decide, {p}, ⟨p, by simp⟩, by simpa using hus, ?_, .inl ?_⟩
    · intro t ht
      rw [List.mem_singleton] at ht
      subst ht
      decide
    · rw [hb1, hlf]
      rfl
    · intro q hq hqp
      rw [Finset.mem_singleton] at hqp
      subst hqp
      rw [hpq]
      refine ⟨hint, hint, ?_⟩
      have hnum : Text.Mon.numer ⟨false, some ⟨['1'], none⟩, []⟩ = 1 := by decide
      rw [hnum]
      simp
    · rw [hpq]
      have hnum : Text.Mon.numer ⟨false, some ⟨['1'], none⟩, []⟩ = 1 := by decide
      rw [hnum]
      simp

/-- Events of computations that deliver bases with the same leading monomials. -/
theorem events_spec {G0 : List (Poly (e + n))} {mb : List (Fin n → ℕ)}
    (hst : ∀ (p : ℕ) (I : Ideal (MvPolynomial (Fin (e + n)) (ZMod p))) (G : List (Poly (e + n))), ModGb e p I G →
      (elimPart e G).map F4.lead = (elimPart e G0).map F4.lead →
      ∃ c, eventOf e ((elimPart e G0).map F4.lead) mb p (keepFree e G) = some (.image p c)) :
    ∀ (gs : List ((ℕ × Option (List (Poly (e + n)))) × Bool)),
      (∀ g ∈ gs, ∀ G, g.1.2 = some G → (∃ I, ModGb e g.1.1 I G) ∧ (elimPart e G).map F4.lead = (elimPart e G0).map F4.lead) →
      ∀ es, eventsOf e ((elimPart e G0).map F4.lead) mb (keepFree e) gs = some es →
        LiftGB.NoSkip es ∧ ((LiftGB.images es).map Prod.fst).Sublist (gs.map fun g => g.1.1) ∧
          ∀ p ∈ (LiftGB.images es).map Prod.fst, p.Prime ∧ p < 2 ^ 32 := by
  intro gs
  induction gs with
  | nil =>
    intro _ es h
    obtain rfl := Option.some.inj h
    exact ⟨by simp [LiftGB.NoSkip], by simp [LiftGB.images], by simp [LiftGB.images]⟩
  | cons g gs ih =>
    intro hg es h
    obtain ⟨⟨p, oG⟩, slow⟩ := g
    cases oG with
    | none =>
      simp only [eventsOf, Option.map_eq_some_iff] at h
      obtain ⟨es', h1, rfl⟩ := h
      obtain ⟨i1, i2, i3⟩ := ih (fun g hg' => hg g (List.mem_cons_of_mem _ hg')) es' h1
      refine ⟨?_, ?_, ?_⟩
      · intro x hx
        rcases List.mem_cons.mp hx with rfl | hx
        · simp
        · exact i1 x hx
      · simpa [LiftGB.images] using i2.cons p
      · simpa [LiftGB.images] using i3
    | some G =>
      obtain ⟨⟨I, hG⟩, hl⟩ := hg _ List.mem_cons_self G rfl
      obtain ⟨c, hc⟩ := hst p I G hG hl
      simp only [eventsOf, hc, Option.bind_some, Option.map_eq_some_iff] at h
      obtain ⟨es', h1, rfl⟩ := h
      obtain ⟨i1, i2, i3⟩ := ih (fun g hg' => hg g (List.mem_cons_of_mem _ hg')) es' h1
      refine ⟨?_, ?_, ?_⟩
      · intro x hx
        rcases List.mem_cons.mp hx with rfl | hx
        · simp
        · exact i1 x hx
      · simpa [LiftGB.images] using i2.cons_cons p
      · intro q hq
        have : q = p ∨ q ∈ (LiftGB.images es').map Prod.fst := by simpa [LiftGB.images] using hq
        rcases this with rfl | hq
        · exact hG.prime
        · exact i3 q hq

theorem goods_fst (p0 : ℕ) (G0 : List (Poly (e + n))) (gs : List ((ℕ × Option (List (Poly (e + n)))) × Bool)) :
    ((goods e p0 G0 gs).map Prod.fst).Sublist (p0 :: gs.map fun g => g.1.1) := by
  unfold goods
  rw [List.map_cons]
  apply List.Sublist.cons_cons
  induction gs with
  | nil => simp
  | cons g gs ih =>
    obtain ⟨⟨p, oG⟩, slow⟩ := g
    cases oG with
    | none => simpa using ih.cons p
    | some G =>
      rw [List.filterMap_cons]
      simp only
      split_ifs with h
      · simpa using ih.cons_cons p
      · simpa using ih.cons p

/-- One polynomial. -/
theorem poly_printed (hL : Lucky e n tss GQ U) {bs : List (MvPolynomial (Fin n) ℚ)} (hB : Basis e n GQ bs) {us : List ℕ}
    {A : List (ℕ × List (Poly (e + n)))} (hA : ∀ x ∈ A, ModOk e n tss GQ x.1 x.2 ∧ U x.1 ∧ x.1 ∈ us)
    {ldm : Fin n → ℕ} {mb : List (Fin n → ℕ)} {P : LiftGB.MPoly} (hpr : PrintQq.Printable ldm mb P) (hqd : ∀ l < P.len, P.qd l = 1)
    {b : MvPolynomial (Fin n) ℚ} (hb : b ∈ bs) (hdeg : OKind.drl.mo.degree b = fs ldm) (h0 : 0 < P.lm) {M : ℕ} (hM : 2 ≤ M) (hMA : M < A.length)
    (hmod : ∀ (i q : ℕ) (G : List (Poly (e + n))), 1 ≤ i → i < M → A[i]? = some (q, G) → ∃ f ∈ keepFree e G, F4.lead f = embed e ldm ∧
      MvPolynomial.map (Int.castRingHom (ZMod q)) (termsMv (exportTerms e ldm mb P)) = C ((P.lm : ℤ) : ZMod q) * toMv q f) :
    PrintedFor us b (PrintQq.qMons n ldm mb P) := by
  have hrd : qqPoly n (PrintQq.qMons n ldm mb P) = (exportTerms e ldm mb P).map fun t => ((t.2, 1), readRow e t.1) := by
    rw [PrintQq.qqPoly_qMons hpr, qRead_export e hqd]
  have hpq := polyQ_export (e := e) hpr hqd
  have hvec : (PrintQq.qMon false n P.lm 1 (PrintQq.row ldm)).vec n = ldm := by
    funext i
    have : (PrintQq.qMon false n P.lm 1 (PrintQq.row ldm)).expo i = (PrintQq.row ldm).getD i 0 := PrintQq.facs_expo i.isLt
    unfold Text.Mon.vec
    rw [this]
    simp [PrintQq.row, List.getD_eq_getElem?_getD]
  have hden : ∀ u, ((polyQ n (PrintQq.qMons n ldm mb P)).coeff u).den = 1 := by
    intro u
    obtain ⟨w, rfl⟩ := fs_surj u
    rw [← rename_coeff_embed e, hpq, coeff_map]
    simp
  have hS : ∀ q ∈ (((A.map Prod.fst).take M).drop 1).toFinset, ∃ i G, 1 ≤ i ∧ i < M ∧ A[i]? = some (q, G) := by
    intro q hq
    obtain ⟨i, hi⟩ := List.mem_iff_getElem?.mp (List.mem_toFinset.mp hq)
    rw [List.getElem?_drop, List.getElem?_take] at hi
    split_ifs at hi with hlt
    rw [List.getElem?_map, Option.map_eq_some_iff] at hi
    obtain ⟨⟨q', G⟩, h1, rfl⟩ := hi
    exact ⟨1 + i, G, by omega, hlt, h1⟩
  have key : ∀ (q : ℕ) [Fact q.Prime], q ∈ (((A.map Prod.fst).take M).drop 1).toFinset → IntegralAt q b ∧
      IntegralAt q (polyQ n (PrintQq.qMons n ldm mb P)) ∧
      reduceMod q (polyQ n (PrintQq.qMons n ldm mb P)) = C ((P.lm : ℤ) : ZMod q) * reduceMod q b := by
    intro q hqp hq
    obtain ⟨i, G, hi1, hi2, hi3⟩ := hS q hq
    obtain ⟨hm, hqN, -⟩ := hA _ (List.mem_of_getElem? hi3)
    simp only at hm hqN
    obtain ⟨f, hf1, hf2, hf3⟩ := hmod i q G hi1 hi2 hi3
    refine ⟨?_, fun u => ?_, ?_⟩
    · intro u
      obtain ⟨w, rfl⟩ := fs_surj u
      rw [← rename_coeff_embed e]
      exact (hL.lucky q hqN).1 _ ((hB.mem b).mp hb) _
    · rw [hden u]
      exact hqp.out.one_lt.ne' ∘ Nat.dvd_one.mp
    · apply rename_injective (R := ZMod q) _ (Fin.natAdd_injective n e)
      rw [← reduceMod_rename, hpq, reduceMod_int, hf3, map_mul, rename_C]
      congr 1
      rw [← hm.gb.embed] at hf1
      obtain ⟨f', hf', rfl⟩ := List.mem_map.mp hf1
      rw [toMv_embed]
      congr 1
      obtain ⟨i', hi', rfl⟩ := List.mem_iff_getElem.mp hf'
      have hF := elim_image hL hB hqN hm
      obtain ⟨k1, k2⟩ := (List.forall₂_iff_get.mp hF).2 i' (by rw [hF.length_eq]; exact hi') hi'
      obtain ⟨r, hr⟩ := (hm.gb.elim_ok _ hf').head
      rw [lead_embed e (by rw [hr]; simp)] at hf2
      have := eq_of_degree hB hb (List.getElem_mem (by rw [hF.length_eq]; exact hi')) (by
        rw [hdeg, ← embed_inj hf2]; exact k1.symm)
      rw [this]
      exact k2
  refine ⟨?_, _, _, rfl, by rw [hvec]; exact hdeg, by rw [PrintQq.qMon_numer]; exact h0,
    (((A.map Prod.fst).take M).drop 1).toFinset, ?_, ?_, ?_, ?_⟩
  · intro t ht
    have : ((t.numer, t.denom), expoRow n t) ∈ qqPoly n (PrintQq.qMons n ldm mb P) := List.mem_map_of_mem ht
    rw [hrd] at this
    obtain ⟨x, hx, hxt⟩ := List.mem_map.mp this
    simp only [Prod.mk.injEq] at hxt
    refine ⟨hxt.1.2.symm, ?_⟩
    rw [← hxt.1.1]
    unfold exportTerms at hx
    rcases List.mem_cons.mp hx with rfl | hx
    · exact ne_of_gt h0
    · obtain ⟨i, hi, rfl⟩ := List.mem_map.mp hx
      simpa using (List.mem_filter.mp hi).2
  · have h1 : 1 < A.length := by omega
    refine ⟨A[1].1, List.mem_toFinset.mpr ?_⟩
    rw [List.mem_iff_getElem?]
    refine ⟨0, ?_⟩
    rw [List.getElem?_drop, List.getElem?_take_of_lt (by omega), List.getElem?_map]
    simp [h1]
  · intro q hq
    obtain ⟨i, G, -, -, hi⟩ := hS q hq
    exact (hA _ (List.mem_of_getElem? hi)).2.2
  · intro q _ hq
    rw [PrintQq.qMon_numer]
    exact key q hq
  · rw [PrintQq.qMon_numer]
    refine exact_or_large hden _ ?_ fun q _ hq => ⟨(key q hq).1, (key q hq).2.2⟩
    intro q hq
    obtain ⟨i, G, -, -, hi⟩ := hS q hq
    exact (hA _ (List.mem_of_getElem? hi)).1.prime

/-- The printed terms and the exported terms. -/
theorem export_qMons {ldm : Fin n → ℕ} {mb : List (Fin n → ℕ)} {P : LiftGB.MPoly} (hpr : PrintQq.Printable ldm mb P) (hqd : ∀ l < P.len, P.qd l = 1) :
    exportTerms e ldm mb P = (PrintQq.qMons n ldm mb P).map fun t => (embed e (t.vec n), t.numer) := by
  have hrd : qqPoly n (PrintQq.qMons n ldm mb P) = (exportTerms e ldm mb P).map fun t => ((t.2, 1), readRow e t.1) := by
    rw [PrintQq.qqPoly_qMons hpr, qRead_export e hqd]
  have hfree : ∀ t ∈ exportTerms e ldm mb P, embed e (fun i : Fin n => t.1 (Fin.natAdd e i)) = t.1 := by
    intro t ht
    unfold exportTerms at ht
    rcases List.mem_cons.mp ht with rfl | ht
    · simp only [embed, Fin.append_right]
    · obtain ⟨i, -, rfl⟩ := List.mem_map.mp ht
      simp only [embed, Fin.append_right]
  have hinj := congrArg (List.map fun r : (ℤ × ℤ) × List ℤ => (embed e (fun i : Fin n => (r.2.getD i.val 0).toNat), r.1.1)) hrd
  rw [List.map_map] at hinj
  refine Eq.trans ?_ (hinj.symm.trans ?_)
  · refine ((List.map_congr_left fun t ht => ?_).trans (List.map_id _)).symm
    rw [Function.comp_apply, id]
    refine Prod.ext ?_ rfl
    refine Eq.trans ?_ (hfree t ht)
    simp only [readRow]
    congr 1
    funext i
    simp [List.getD_eq_getElem?_getD]
  · unfold qqPoly
    rw [List.map_map]
    refine List.map_congr_left fun t _ => ?_
    rw [Function.comp_apply]
    refine Prod.ext ?_ rfl
    simp only
    congr 1
    funext i
    simp [expoRow, Text.Mon.vec, List.getD_eq_getElem?_getD]

/-- The lifted basis as it is printed. -/
theorem done_text (E : LiftGB.Ext) (hinv : CRT.InvSpec E.inv) (hmcrt : LiftGB.McrtSpec E.mcrt) {nt : ℕ} (hnt : 1 ≤ nt)
    (hn : 1 ≤ n) (hL : Lucky e n tss GQ U) {bs : List (MvPolynomial (Fin n) ℚ)} (hB : Basis e n GQ bs)
    {p : ℕ} {G : List (Poly (e + n))} (h : ModOk e n tss GQ p G)
    (hunit : ¬ (G.length = 1 ∧ F4.lead (G.getD 0 []) = 0)) {mb : List (Fin n → ℕ)} (hmb : enlarged (keptLeads e G) = .done mb)
    {cs : List (ℕ → ℕ)} (hcs : storeAll e mb (lensOf (keptLeads e G) mb) 0 (kept e G) = some cs) {s0 s : LiftGB.St}
    (hs0 : LiftGB.initSt (keptLeads e G).length (lensOf (keptLeads e G) mb) p (fun k l => cs.getD k (fun _ => 0) l) = some s0)
    {gs : List ((ℕ × Option (List (Poly (e + n)))) × Bool)} (hgs : ∀ g ∈ gs, ∀ G, g.1.2 = some G → ModOk e n tss GQ g.1.1 G)
    (hN : ∀ q ∈ p :: gs.map fun g => g.1.1, U q) (hnd : (p :: gs.map fun g => g.1.1).Nodup)
    {es : List (LiftGB.Ev × Bool)} (hes : eventsOf e (keptLeads e G) mb (keepFree e) gs = some es)
    (hrun : LiftGB.run E nt es s0 0 0 = .done s) :
    s.npol = bs.length ∧ bs ≠ [] ∧ ∃ tls, (∀ names : List (List Char), names.length = e + n →
        PrintQq.displayBasis names e (keptLeads e G) mb s.npol s.polys = basisText (tls.map (Text.line (names.drop e)))) ∧
      exportQq e (keptLeads e G) mb s.npol s.polys = some (exported e tls) ∧
      List.Forall₂ (PrintedFor (p :: gs.map fun g => g.1.1)) bs tls := by
  have hp : Fact p.Prime := ⟨h.prime⟩
  obtain ⟨k1, k2⟩ := elim_leads h.gb
  rw [k1] at hmb hcs hs0 hes ⊢
  have hN0 := hN p List.mem_cons_self
  have hF0 := elim_image hL hB hN0 h
  have hne : elimPart e G ≠ [] := fun h0 => enlarged_ne hmb (by rw [h0]; rfl)
  have hunit' : ∀ f ∈ elimPart e G, F4.lead f ≠ 0 := fun f hf h0 => hunit (elim_unit h.gb hf h0)
  have hleads : ∀ (q : ℕ) (G' : List (Poly (e + n))), ModOk e n tss GQ q G' → U q →
      (elimPart e G').map (fun f => fs (F4.lead f)) = bs.map OKind.drl.mo.degree := by
    intro q G' hG' hq
    have hqp : Fact q.Prime := ⟨hG'.prime⟩
    have hF := elim_image hL hB hq hG'
    generalize elimPart e G' = l at hF
    clear * - hF
    induction hF with
    | nil => rfl
    | cons h _ ih => rw [List.map_cons, List.map_cons, ih, h.1]
  have hsame : ∀ g ∈ gs, ∀ G', g.1.2 = some G' → (∃ I, ModGb e g.1.1 I G') ∧ (elimPart e G').map F4.lead = (elimPart e G).map F4.lead := by
    intro g hg G' hG'
    have hm := hgs g hg G' hG'
    have hq := hN g.1.1 (List.mem_cons_of_mem _ (List.mem_map_of_mem hg))
    refine ⟨⟨_, hm.gb⟩, ?_⟩
    have := (hleads _ _ hm hq).trans (hleads _ _ h hN0).symm
    have hinj : Function.Injective (List.map fun m : Fin n → ℕ => fs m) :=
      List.map_injective_iff.mpr fun a b hab => fs_inj.mp hab
    apply hinj
    rw [List.map_map, List.map_map]
    exact this
  have hsub := goods_fst p G gs
  obtain ⟨mb', em, hs, hlens, hnot, hst⟩ := C63_storage hn hne hunit'
  rw [hmb] at em
  cases em
  obtain ⟨hnoskip, himg, himgp⟩ := events_spec (fun q I G' hG' hl => by
    obtain ⟨c, hc, -⟩ := (hst q I G' hG').2.2 hl
    exact ⟨c, hc⟩) gs hsame es hes
  obtain ⟨mb', c0, es', s0', x1, x2, x3, x4, -, x6⟩ := C64_export E hinv hmcrt hnt hn h.gb hne hunit' gs (fun g hg G' hG' => by
    obtain ⟨y1, y2⟩ := hsame g hg G' hG'
    exact ⟨y1, by simpa using congrArg List.length y2⟩) (hnd.sublist hsub)
  rw [hmb] at x1
  cases x1
  rw [hes] at x3
  obtain rfl := Option.some.inj x3
  have hc0 : c0 = fun k l => cs.getD k (fun _ => 0) l := by
    replace x2 : eventOf e ((elimPart e G).map F4.lead) mb p (kept e G) = some (.image p c0) := x2
    unfold eventOf at x2
    rw [hcs] at x2
    split at x2
    · cases x2
    · split at x2
      · cases x2
      · simp only [Option.map_some, Option.some.injEq, LiftGB.Ev.image.injEq, true_and] at x2
        exact x2.symm
  subst hc0
  rw [List.length_map] at hs0
  rw [hs0] at x4
  obtain rfl := Option.some.inj x4
  obtain ⟨hs', hexp, hlen, hpol⟩ := x6 s hrun
  obtain ⟨hnpol, hprint⟩ := C70_run E hinv hmcrt hnt hn (lms := (elimPart e G).map F4.lead) (by simpa using hne)
    (by intro m hm; obtain ⟨f, hf, rfl⟩ := List.mem_map.mp hm; exact hunit' f hf) hmb (by simpa using hlens) p _ es hnoskip
    (by
      intro pc hpc
      rcases List.mem_cons.mp hpc with rfl | hpc
      · exact h.gb.prime
      · exact himgp _ (List.mem_map_of_mem hpc))
    (hnd.sublist (himg.cons_cons p)) (by rw [List.length_map]; exact hs0) hrun
  rw [List.length_map] at hnpol
  have hbl : bs.length = (elimPart e G).length := hF0.length_eq
  have hhs : hs' = (List.range s.npol).map fun k => exportTerms e (((elimPart e G).map F4.lead).getD k 0) mb (s.polys k) := by
    rw [exportQq_spec] at hexp
    simp only [Option.some.injEq, Prod.mk.injEq] at hexp
    rw [List.eq_iff_flatten_eq]
    exact ⟨hexp.2.symm, by rw [← hexp.1, List.map_map]; rfl⟩
  have hnp0 : s.npol ≠ 0 := by
    rw [hnpol]
    exact fun h0 => hne (List.eq_nil_of_length_eq_zero h0)
  refine ⟨hnpol.trans hbl.symm, fun h0 => hnp0 (by rw [hnpol, ← hbl, h0]; rfl),
    (List.range s.npol).map fun k => PrintQq.qMons n (((elimPart e G).map F4.lead).getD k 0) mb (s.polys k), fun names hnames => ?_, ?_, ?_⟩
  · rw [displayBasis_text _ _ _ _ hnp0, List.map_map]
    unfold basisText sep
    congr 4
    apply List.map_congr_left
    intro k hk
    exact PrintQq.displayModpoly_line hnames (hprint k (List.mem_range.mp hk)).1
  · have hterm : ∀ k ∈ List.range s.npol, exportTerms e (((elimPart e G).map F4.lead).getD k 0) mb (s.polys k) =
        (PrintQq.qMons n (((elimPart e G).map F4.lead).getD k 0) mb (s.polys k)).map fun t => (embed e (t.vec n), t.numer) := by
      intro k hk
      obtain ⟨hpr, hqd⟩ := hprint k (List.mem_range.mp hk)
      exact export_qMons hpr hqd
    rw [exportQq_spec, exported, List.flatMap_map, List.map_map]
    congr 2
    · exact List.map_congr_left fun k hk => by rw [hterm k hk, List.length_map, Function.comp_apply]
    · rw [← List.flatMap_def]
      exact List.flatMap_congr fun k hk => hterm k hk
  · rw [List.forall₂_iff_get]
    refine ⟨by simp [hnpol, hbl], fun k hk hk' => ?_⟩
    have hkn : k < s.npol := by simpa using hk'
    have hke : k < (elimPart e G).length := by omega
    obtain ⟨hpr, hqd⟩ := hprint k hkn
    simp only [List.get_eq_getElem, List.getElem_map, List.getElem_range]
    have hf0 : (elimPart e G)[k]? = some (elimPart e G)[k] := List.getElem?_eq_getElem hke
    have hlk : ((elimPart e G).map F4.lead).getD k 0 = F4.lead (elimPart e G)[k] := by
      rw [List.getD_eq_getElem?_getD, List.getElem?_map, hf0]; rfl
    obtain ⟨a, tl, ha1, ha2, ha3, -, M, j, hM, hMj, hmod, ⟨pj, Gj, hj, -⟩, -⟩ := hpol k _ _ hf0 (by
      rw [hhs, List.getElem?_map, List.getElem?_range hkn]; rfl)
    have ha : (s.polys k).lm = a := by
      replace ha1 : exportTerms e (((elimPart e G).map F4.lead).getD k 0) mb (s.polys k) = _ := ha1
      unfold exportTerms at ha1
      simp only [List.cons.injEq, Prod.mk.injEq] at ha1
      exact ha1.1.2
    have hdeg : OKind.drl.mo.degree bs[k] = fs (F4.lead (elimPart e G)[k]) :=
      ((List.forall₂_iff_get.mp hF0).2 k hk hke).1
    rw [hlk] at hpr ⊢
    refine poly_printed hL hB (A := goods e p G gs) ?_ hpr hqd (List.getElem_mem hk) hdeg (by rw [ha]; exact ha2) hM
      (lt_trans hMj (List.getElem?_eq_some_iff.mp hj).1) ?_
    · intro x hx
      have hxu := hsub.subset (List.mem_map_of_mem hx)
      refine ⟨?_, hN _ hxu, hxu⟩
      unfold goods at hx
      rcases List.mem_cons.mp hx with rfl | hx
      · exact h
      · obtain ⟨⟨⟨q, oG⟩, sl⟩, hg1, hg2⟩ := List.mem_filterMap.mp hx
        cases oG with
        | none => simp at hg2
        | some G' =>
          simp only [Option.ite_none_right_eq_some, Option.some.injEq] at hg2
          obtain ⟨-, rfl⟩ := hg2
          exact hgs _ hg1 _ rfl
    · intro i q G' h1 h2 h3
      obtain ⟨f, hf1, hf2, hf3⟩ := hmod i q G' h1 h2 h3
      refine ⟨f, hf1, hf2, ?_⟩
      rw [ha, ← hf3, ← hlk]

theorem PrintedFor.mono {us us' : List ℕ} (hs : ∀ p ∈ us, p ∈ us') {b : MvPolynomial (Fin n) ℚ} {ts : List Text.Mon}
    (h : PrintedFor us b ts) : PrintedFor us' b ts := by
  obtain ⟨h1, t0, tl, h2, h3, h4, S, h5, h6, h7⟩ := h
  exact ⟨h1, t0, tl, h2, h3, h4, S, h5, fun p hp => hs p (h6 p hp), h7⟩

theorem core_text (E : LiftGB.Ext) (hinv : CRT.InvSpec E.inv) (hmcrt : LiftGB.McrtSpec E.mcrt) {nt : ℕ} (hnt : 1 ≤ nt)
    (hn : 1 ≤ n) (hne : ∀ ts ∈ tss, ts ≠ []) (hL : Lucky e n tss GQ U) {bs : List (MvPolynomial (Fin n) ℚ)} (hB : Basis e n GQ bs)
    (hperm : tss'.Perm tss) (hZ : List.Forall₂ (GenOf e) tss' Z)
    {st : Option (Tr (e + n))} {us : List ℕ} {r : Res (Lifted n)} (h : Core E nt e n Z st us r) :
    (∀ t, st = some t → TrOk e n tss U Z t) → (∀ q ∈ us, U q) → us.Nodup →
    (r = .undefined → bs = []) ∧ ∀ b, r = .printed b → bs ≠ [] ∧ ∃ tls, (∀ names : List (List Char), names.length = e + n →
        printLifted names e b = headerQq names e bs.length ++ basisText (tls.map (Text.line (names.drop e)))) ∧
      exportQq e b.ldm b.mb b.npol b.polys = some (exported e tls) ∧ List.Forall₂ (PrintedFor us) bs tls := by
  induction h with
  | unit h1 h2 h3 h4 h5 =>
    intro hst hN _
    refine ⟨by simp, ?_⟩
    rintro out ⟨rfl⟩
    obtain ⟨k1, -⟩ := first_ok hne hL hperm hZ hst h1 (hN _ List.mem_cons_self) h2
    obtain ⟨m1, m2, tls, m3, m5, m4⟩ := unit_text hn hL hB (hN _ List.mem_cons_self) List.mem_cons_self k1 h3 h4 h5
    refine ⟨fun h0 => (by rw [h0] at m1; simp at m1), tls, fun names _ => ?_, m5, m4⟩
    rw [m1, ← m3 names, printLifted, m2]
  | undefined h1 h2 h3 =>
    intro hst hN _
    refine ⟨fun _ => ?_, by rintro out ⟨⟩⟩
    obtain ⟨k1, -⟩ := first_ok hne hL hperm hZ hst h1 (hN _ List.mem_cons_self) h2
    have hp := Fact.mk k1.prime
    have hF := elim_image hL hB (hN _ List.mem_cons_self) k1
    rw [(elim_leads k1.gb).1] at h3
    by_contra h0
    cases hl : ((elimPart e _).map F4.lead).getLast? with
    | none =>
      rw [List.getLast?_eq_none_iff, List.map_eq_nil_iff] at hl
      rw [hl] at hF
      cases hF
      exact h0 rfl
    | some l =>
      obtain ⟨L, hL1, -⟩ := enlarged_spec hn hl
      rw [hL1] at h3
      cases h3
  | stop h1 h2 => intro _ _ _; exact ⟨by rintro ⟨⟩, by rintro out ⟨⟩⟩
  | done h1 h2 h3 h4 h5 h6 h7 h8 h9 =>
    intro hst hN hnd
    refine ⟨by simp, ?_⟩
    rintro out ⟨rfl⟩
    obtain ⟨k1, k2⟩ := first_ok hne hL hperm hZ hst h1 (hN _ List.mem_cons_self) h2
    have hl := later_ok hne hL hperm hZ k2 h7 (firstPrime_spec h1).1 fun g hg => hN _ (List.mem_cons_of_mem _ (List.mem_map_of_mem hg))
    obtain ⟨m1, m2, tls, m3, m5, m4⟩ := done_text E hinv hmcrt hnt hn hL hB k1 h3 h4 h5 h6 hl hN hnd h8 h9
    exact ⟨m2, tls, fun names hnames => by rw [printLifted, m3 names hnames, m1], m5, m4⟩
  | abort => intro _ _ _; exact ⟨by rintro ⟨⟩, by rintro out ⟨⟩⟩
  | restart h1 h2 h3 h4 h5 h6 h7 h8 h9 h10 ih =>
    intro hst hN hnd
    obtain ⟨k1, k2⟩ := first_ok hne hL hperm hZ hst h1 (hN _ (by simp)) h2
    obtain ⟨i1, i2⟩ := ih (by rintro t ⟨rfl⟩; exact k2) (fun q hq => hN q (List.mem_append_right _ hq)) (List.nodup_append.mp hnd).2.1
    refine ⟨i1, fun out ho => ?_⟩
    obtain ⟨j1, tls, j2, j4, j3⟩ := i2 out ho
    exact ⟨j1, tls, j2, j4, j3.imp fun b ts h => h.mono fun q hq => List.mem_append_right _ hq⟩

end

/-- **C79**: for every input file over the rationals, with `bs` the reduced Gröbner basis of the elimination ideal for the degree
reverse lexicographical order: every execution with distinct lucky primes that prints, prints the comments, with the number of
elements of `bs`, and for each element of `bs`, in increasing order, a polynomial `PrintedFor` it.  If nothing is left after the
elimination, nothing is printed; otherwise no execution with such primes is undefined. -/
theorem C79_basis {f : File} {names : List (List Char)} {tss : List (List Text.Mon)} (h : InputOkQ f names tss) (e n : ℕ)
    (hn : names.length = e + n) :
    ∃ bs : List (MvPolynomial (Fin n) ℚ),
      IsReducedGroebner OKind.drl.mo ((idealQ (e + n) tss).comap (rename (Fin.natAdd e)).toRingHom) { b | b ∈ bs } ∧
      (bs.Pairwise fun a b => OKind.drl.mo.toSyn (OKind.drl.mo.degree a) < OKind.drl.mo.toSyn (OKind.drl.mo.degree b)) ∧
      ∀ (E : LiftGB.Ext), CRT.InvSpec E.inv → LiftGB.McrtSpec E.mcrt → ∀ (nt : ℕ), 1 ≤ nt → ∀ (us : List ℕ) (r : Res (List Char)),
        Run E nt e n f.text us r → (∀ p ∈ us, LuckyPrime (n := e + n) (OKind.be e).mo tss p) → us.Nodup →
        (r = .undefined → bs = []) ∧
        ∀ out, r = .printed out → bs ≠ [] ∧ ∃ tls,
          out = Text.basisHeader (names.drop e) bs.length ++ basisText (tls.map (Text.line (names.drop e))) ∧ List.Forall₂ (PrintedFor us) bs tls := by
  have hE := h.expanded
  rw [hn] at hE
  obtain ⟨GQ, hL⟩ := lucky_exists hE
  obtain ⟨bs, hB, hgb⟩ := basis_exists hL
  rw [idealOver_rat hE] at hgb
  refine ⟨bs, hgb, hB.sorted, ?_⟩
  intro E hinv hmcrt nt hnt us r hr hN hnd
  simp only [← headerQq_eq]
  obtain ⟨-, h2, Z, tss', b, h3, h4, h5, rfl⟩ := run_parts h hr
  obtain ⟨k1, k2⟩ := core_text E hinv hmcrt hnt h2 h.file.terms hL hB h3 h4 h5 (by rintro t ⟨⟩) hN hnd
  cases b with
  | printed b =>
    refine ⟨by rintro ⟨⟩, ?_⟩
    rintro out ⟨rfl⟩
    obtain ⟨k3, tls, k4, -, k5⟩ := k2 b rfl
    exact ⟨k3, tls, k4 names hn, k5⟩
  | stopped => exact ⟨by rintro ⟨⟩, by rintro out ⟨⟩⟩
  | undefined => exact ⟨fun _ => k1 rfl, by rintro out ⟨⟩⟩

end EndToEndQq
end Verif.Props
