import Verif.Spec.BasisArrays
import Verif.ExportQq
import Verif.Props.EndToEndQqEx

/-!
C85: the library function that returns a Gröbner basis over the rationals in arrays.  C86: the leading monomials printed by `msolve -g 1`.
-/
namespace Verif.Props
namespace ExportQq

open Verif.Orders Verif.Import Verif.Parse Verif.F4 Verif.Spec Verif.EndToEnd Verif.EndToEndQq Verif.Groebner Verif.LiftStore Verif.ExportQq
open Verif.Lucky Verif.ElimField MvPolynomial
open Verif.SolveQ (readGensQ)
open Verif.Spec.Julia (Holds HoldsZ)
open Verif.Spec.Text (File FileOk ExpandedQ idealQ polyQ polyMod LuckyPrime)
open Verif.Props.EndToEndQq
open Verif.Props.EndToEnd (twoNames)

/-! ### The arrays -/

theorem readTerm_at {n : ℕ} (t : Text.Mon) (E0 E1 C0 C1 : List ℤ) (off : ℕ) (hE : E0.length = n * off) (hC : C0.length = 2 * off) :
    SolveQ.readTermQ n (E0 ++ ((List.ofFn fun i : Fin n => (t.vec n i : ℤ)) ++ E1)) (C0 ++ (t.numer :: t.denom :: C1)) off =
      some ((t.numer, t.denom), expoRow n t) := by
  unfold SolveQ.readTermQ
  have h1 : (C0 ++ (t.numer :: t.denom :: C1))[2 * off]? = some t.numer := by
    rw [List.getElem?_append_right (by omega), hC, Nat.sub_self]; rfl
  have h2 : (C0 ++ (t.numer :: t.denom :: C1))[2 * off + 1]? = some t.denom := by
    rw [List.getElem?_append_right (by omega), hC, Nat.add_sub_cancel_left]; rfl
  rw [h1, h2]
  simp only [Option.bind_some]
  have h3 : ((List.range n).mapM fun i => (E0 ++ ((List.ofFn fun i : Fin n => (t.vec n i : ℤ)) ++ E1))[n * off + i]?) = some (expoRow n t) := by
    refine VecRecon.forall₂_mapM _ _ _ ?_
    rw [List.forall₂_iff_get]
    refine ⟨by simp [expoRow], fun i hi hi2 => ?_⟩
    have hi' : i < n := by simpa using hi
    simp only [List.get_eq_getElem, List.getElem_range]
    rw [List.getElem?_append_right (by omega), hE, Nat.add_sub_cancel_left, List.getElem?_append_left (by simpa using hi')]
    simp [hi', expoRow, Text.Mon.vec]
  rw [h3]
  rfl

theorem readPoly_at {n : ℕ} (f : List Text.Mon) : ∀ (E0 E1 C0 C1 : List ℤ) (off : ℕ), E0.length = n * off → C0.length = 2 * off →
    (List.range' off f.length).mapM (SolveQ.readTermQ n (E0 ++ ((f.flatMap fun t => List.ofFn fun i : Fin n => (t.vec n i : ℤ)) ++ E1))
      (C0 ++ ((f.flatMap fun t => [t.numer, t.denom]) ++ C1))) = some (qqPoly n f) := by
  induction f with
  | nil => intros; rfl
  | cons t f ih =>
    intro E0 E1 C0 C1 off hE hC
    rw [List.length_cons, List.range'_succ, List.mapM_cons]
    have h1 := readTerm_at t E0 ((f.flatMap fun t => List.ofFn fun i : Fin n => (t.vec n i : ℤ)) ++ E1) C0
      ((f.flatMap fun t => [t.numer, t.denom]) ++ C1) off hE hC
    have h2 := ih (E0 ++ List.ofFn fun i : Fin n => (t.vec n i : ℤ)) E1 (C0 ++ [t.numer, t.denom]) C1 (off + 1) (by simp [hE]; ring) (by simp [hC]; ring)
    simp only [List.flatMap_cons, List.append_assoc, List.cons_append, List.nil_append] at h1 h2 ⊢
    rw [h1, h2]
    rfl

theorem readGens_at {n : ℕ} (tss : List (List Text.Mon)) : ∀ (E0 C0 : List ℤ) (off : ℕ), E0.length = n * off → C0.length = 2 * off →
    readGensQ n (E0 ++ tss.flatten.flatMap fun t => List.ofFn fun i : Fin n => (t.vec n i : ℤ)) (C0 ++ tss.flatten.flatMap fun t => [t.numer, t.denom]) off
      (tss.map List.length) = some (tss.map (qqPoly n)) := by
  induction tss with
  | nil => intros; rfl
  | cons f tss ih =>
    intro E0 C0 off hE hC
    have h1 := readPoly_at f E0 (tss.flatten.flatMap fun t => List.ofFn fun i : Fin n => (t.vec n i : ℤ)) C0 (tss.flatten.flatMap fun t => [t.numer, t.denom]) off hE hC
    have h2 := ih (E0 ++ f.flatMap fun t => List.ofFn fun i : Fin n => (t.vec n i : ℤ)) (C0 ++ f.flatMap fun t => [t.numer, t.denom]) (off + f.length)
      (by simp [hE, List.length_flatMap]; ring) (by simp [hC, List.length_flatMap]; ring)
    simp only [List.flatten_cons, List.flatMap_append, List.map_cons, List.append_assoc, readGensQ] at h1 h2 ⊢
    rw [h1]
    simp only [Option.bind_some]
    rw [h2]
    rfl

theorem readGens_holds {n : ℕ} {tss : List (List Text.Mon)} {lens : List ℕ} {exps cfs : List ℤ} (h : Holds n tss lens exps cfs) :
    readGensQ n exps cfs 0 lens = some (tss.map (qqPoly n)) := by
  obtain ⟨rfl, rfl, rfl⟩ := h
  simpa using readGens_at tss [] [] 0 (by simp) rfl

theorem export_holds {n e : ℕ} {b : Lifted n} {tls : List (List Text.Mon)} (h : exportQq e b.ldm b.mb b.npol b.polys = some (exported e tls)) :
    ∃ A, exportArrays e b = some A ∧ HoldsZ e n tls A.lens A.exps A.cfs ∧ A.ld = tls.length ∧ A.nterms = tls.flatten.length := by
  have hnp : b.npol = tls.length := by
    unfold exportQq at h
    rw [Option.map_eq_some_iff] at h
    obtain ⟨t, -, ht⟩ := h
    have := congrArg (fun r => r.1.length) ht
    simpa [exported] using this
  unfold exportArrays
  rw [h]
  refine ⟨_, rfl, ⟨rfl, ?_, ?_⟩, hnp, ?_⟩
  · simp only [exported, List.flatMap_def, List.map_flatten, List.map_map, List.flatten_flatten]
    congr 2
    simp only [Function.comp_def, List.map_map]
    funext ts
    congr 1
    refine List.map_congr_left fun t _ => ?_
    rw [embed, List.ofFn_fin_append]
    congr 1
    exact List.ofFn_const _ _
  · simp [exported, List.flatMap_def, List.map_flatten, Function.comp_def]
  · simp [exported, List.length_flatten]

/-- **C85**: for all arrays that hold generators with rational coefficients in `e + n` variables, with `bs` the reduced Gröbner basis of the elimination ideal for the
degree reverse lexicographical order: every call with distinct lucky primes that returns, returns arrays that hold for each element of `bs`, in increasing order, a polynomial
`PrintedFor` it, and the number of terms.  If nothing is left after the elimination, the call does not return arrays; otherwise no call with such primes is undefined. -/
theorem C85_basis {e n : ℕ} {tss : List (List Text.Mon)} (hne : tss ≠ []) (ht : ∀ ts ∈ tss, ts ≠ []) (hE : ∀ ts ∈ tss, ExpandedQ (e + n) ts)
    {lens : List ℕ} {exps cfs : List ℤ} (ha : Holds (e + n) tss lens exps cfs) :
    ∃ bs : List (MvPolynomial (Fin n) ℚ),
      IsReducedGroebner OKind.drl.mo ((idealQ (e + n) tss).comap (rename (Fin.natAdd e)).toRingHom) { b | b ∈ bs } ∧
      (bs.Pairwise fun a b => OKind.drl.mo.toSyn (OKind.drl.mo.degree a) < OKind.drl.mo.toSyn (OKind.drl.mo.degree b)) ∧
      ∀ (E : LiftGB.Ext), CRT.InvSpec E.inv → LiftGB.McrtSpec E.mcrt → ∀ (nt : ℕ), 1 ≤ nt → ∀ (us : List ℕ) (r : Res Verif.ExportQq.Arrays),
        RunA E nt e n lens exps cfs us r → (∀ p ∈ us, LuckyPrime (n := e + n) (OKind.be e).mo tss p) → us.Nodup →
        (r = .undefined → bs = []) ∧
        ∀ A, r = .printed A → bs ≠ [] ∧ A.ld = bs.length ∧ ∃ tls, HoldsZ e n tls A.lens A.exps A.cfs ∧ A.nterms = tls.flatten.length ∧
          List.Forall₂ (PrintedFor us) bs tls := by
  obtain ⟨GQ, hL⟩ := lucky_exists hE
  obtain ⟨bs, hB, hgb⟩ := basis_exists hL
  rw [idealOver_rat hE] at hgb
  refine ⟨bs, hgb, hB.sorted, ?_⟩
  intro E hinv hmcrt nt hnt us r hr hN hnd
  obtain ⟨h2, hr⟩ := hr
  rw [readGens_holds ha] at hr
  simp only at hr
  rw [import_allQ hne hE] at hr
  obtain ⟨Z, b, hi, hc, rfl⟩ := hr
  obtain ⟨tss', h3, h4⟩ := input_parts h2 ht hE hi
  obtain ⟨k1, k2⟩ := core_text E hinv hmcrt hnt h2 ht hL hB h3 h4 hc (by rintro t ⟨⟩) hN hnd
  cases b with
  | printed b =>
    obtain ⟨k3, tls, -, k4, k5⟩ := k2 b rfl
    obtain ⟨A, a1, a2, a3, a4⟩ := export_holds k4
    simp only [returned, a1]
    refine ⟨by rintro ⟨⟩, ?_⟩
    rintro A ⟨rfl⟩
    exact ⟨k3, by rw [a3, k5.length_eq], tls, a2, a4, k5⟩
  | stopped => exact ⟨by rintro ⟨⟩, by rintro out ⟨⟩⟩
  | undefined => exact ⟨fun _ => k1 rfl, by rintro out ⟨⟩⟩

/-! ### Leading monomials -/

/-- A monomial as a term. -/
def lmMon {n : ℕ} (m : Fin n → ℕ) : Text.Mon := ⟨false, if m = 0 then some ⟨['1'], none⟩ else none, PrintQq.facs n (PrintQq.row m)⟩

theorem lmMon_numer {n : ℕ} (m : Fin n → ℕ) : (lmMon m).numer = 1 ∧ (lmMon m).denom = 1 := by
  have h1 : ∀ f, Text.Mon.numer ⟨false, some ⟨['1'], none⟩, f⟩ = Text.Mon.numer ⟨false, some ⟨['1'], none⟩, []⟩ := fun _ => rfl
  have h2 : Text.Mon.numer ⟨false, some ⟨['1'], none⟩, []⟩ = 1 := by decide
  by_cases h : m = 0
  · simp only [lmMon, if_pos h]
    exact ⟨(h1 _).trans h2, rfl⟩
  · simp only [lmMon, if_neg h]
    exact ⟨rfl, rfl⟩

theorem lmMon_vec {n : ℕ} (m : Fin n → ℕ) : (lmMon m).vec n = m := by
  funext i
  have : (lmMon m).expo i = (PrintQq.row m).getD i 0 := PrintQq.facs_expo i.isLt
  unfold Text.Mon.vec
  rw [this]
  simp [PrintQq.row, List.getD_eq_getElem?_getD]

theorem headerLm_eq (names : List (List Char)) (e len : ℕ) : headerLm names e len = Text.leadHeader (names.drop e) len := by
  have h := headerQq_eq names e len
  unfold headerQq Text.basisHeader at h
  unfold headerLm Text.leadHeader
  simp only [List.map_cons, List.flatten_cons, List.append_assoc] at h ⊢
  have h1 : "#Reduced Groebner basis data\n".toList = "#Reduced Groebner basis data".toList ++ ['\n'] := by decide +kernel
  have h2 : "#Leading ideal data\n".toList = "#Leading ideal data".toList ++ ['\n'] := by decide +kernel
  rw [h1, List.append_assoc] at h
  rw [h2, List.append_assoc]
  congr 1
  exact List.append_cancel_left h

section
variable {e n : ℕ} {tss tss' : List (List Text.Mon)} {GQ : Set (MvPolynomial (Fin (e + n)) ℚ)} {U : ℕ → Prop}
  {Z : List (List ((Fin (e + n) → ℕ) × ℤ))}

theorem displayLeads_text {names : List (List Char)} (hlen : names.length = e + n) {ldm : List (Fin n → ℕ)} {polys : ℕ → LiftGB.MPoly} (hne : ldm ≠ [])
    (h : ∀ k < ldm.length, ldm.getD k 0 ≠ 0 ∧ (polys k).len ≠ 0) :
    PrintQq.displayLeads names e ldm ldm.length polys = basisText (ldm.map fun m => Text.line (names.drop e) [lmMon m]) := by
  have hL : (names.drop e).length = n := by rw [List.length_drop]; omega
  have hrow : ∀ m : Fin n → ℕ, (PrintQq.row m).length = n := fun m => by simp [PrintQq.row]
  have hline : ∀ k < ldm.length, (if (polys k).len = 0 then PrintQq.displayMonomial (PrintQq.named names e (ldm.getD k 0))
      else PrintQq.displayMonomialSingle false (PrintQq.named names e (ldm.getD k 0))) = Text.line (names.drop e) [lmMon (ldm.getD k 0)] := by
    intro k hk
    rw [if_neg (h k hk).2]
    have := PrintQq.qMon_signed (names := names.drop e) false 1 (d := 1) one_pos (e := PrintQq.row (ldm.getD k 0)) (by rw [hL, hrow])
      (by rw [hL]; exact PrintQq.facs_row rfl (h k hk).1)
    rw [hL] at this
    simp only [and_self, if_true, List.nil_append] at this
    have hq : lmMon (ldm.getD k 0) = PrintQq.qMon false n 1 1 (PrintQq.row (ldm.getD k 0)) := by
      unfold lmMon PrintQq.qMon
      rw [if_neg (h k hk).1]
      simp
    rw [hq]
    unfold PrintQq.named
    rw [← this]
    simp [Text.line]
  have hm : (ldm.map fun m => Text.line (names.drop e) [lmMon m]) =
      (List.range ldm.length).map fun k => if (polys k).len = 0 then PrintQq.displayMonomial (PrintQq.named names e (ldm.getD k 0))
        else PrintQq.displayMonomialSingle false (PrintQq.named names e (ldm.getD k 0)) := by
    apply List.ext_getElem
    · simp
    · intro k h1 h2
      have hk : k < ldm.length := by simpa using h1
      rw [List.getElem_map, List.getElem_map, List.getElem_range, hline k hk]
      simp [List.getD_eq_getElem?_getD, hk]
  have hnp : ldm.length ≠ 0 := fun h0 => hne (List.length_eq_zero_iff.mp h0)
  rw [hm]
  generalize ldm.length = N at hnp
  obtain ⟨N, rfl⟩ := Nat.exists_eq_succ_of_ne_zero hnp
  unfold PrintQq.displayLeads basisText
  simp only
  rw [if_neg hnp, Nat.succ_eq_add_one, Nat.add_sub_cancel, List.range_succ, List.map_append, List.map_cons, List.map_nil,
    ← flatMap_sep [',', ' ', '\n']]
  simp

/-- The printed leading monomials. -/
theorem lm_text (hn : 1 ≤ n) (hL : Lucky e n tss GQ U) {bs : List (MvPolynomial (Fin n) ℚ)} (hB : Basis e n GQ bs) {p : ℕ} (hN : U p)
    {G : List (Poly (e + n))} (h : ModOk e n tss GQ p G) {mb : List (Fin n → ℕ)} (hmb : enlarged (keptLeads e G) = .done mb)
    {names : List (List Char)} (hlen : names.length = e + n) : bs ≠ [] ∧
    printLm names e ⟨keptLeads e G, mb, (keptLeads e G).length,
        fun k => ⟨lensOf (keptLeads e G) mb k, fun _ _ => 0, fun _ => 0, fun _ => 0, fun _ => 0, 1⟩⟩ =
      headerLm names e bs.length ++ basisText (bs.map fun b => Text.line (names.drop e) [lmMon (OKind.drl.mo.degree b)]) := by
  have hp : Fact p.Prime := ⟨h.prime⟩
  obtain ⟨k1, k2⟩ := elim_leads h.gb
  have hF := elim_image hL hB hN h
  have hbl : bs.map (fun b => (OKind.drl.mo.degree b : Fin n → ℕ)) = keptLeads e G := by
    rw [k1]
    generalize elimPart e G = l at hF
    clear * - hF
    induction hF with
    | nil => rfl
    | cons h _ ih => rw [List.map_cons, List.map_cons, ih, h.1]; rfl
  have hkn : keptLeads e G ≠ [] := enlarged_ne hmb
  have hbs : bs.length = (keptLeads e G).length := by rw [← hbl, List.length_map]
  refine ⟨fun h0 => hkn (by rw [← hbl, h0]; rfl), ?_⟩
  have hmap : (bs.map fun b => Text.line (names.drop e) [lmMon (OKind.drl.mo.degree b)]) =
      (keptLeads e G).map fun m => Text.line (names.drop e) [lmMon m] := by
    rw [← hbl, List.map_map]; rfl
  unfold printLm
  rw [hbs, hmap]
  congr 1
  by_cases hu : G.length = 1 ∧ F4.lead (G.getD 0 []) = 0
  · obtain ⟨h1, h2⟩ := hu
    obtain ⟨g, rfl⟩ := List.length_eq_one_iff.mp h1
    replace h2 : F4.lead g = 0 := h2
    have hfree : Free e (F4.lead g) := by rw [h2]; intro i; rfl
    have hkf : keepFree e [g] = [g] := by
      unfold keepFree
      rw [List.filter_cons_of_pos (by rw [decide_eq_true_eq, ← free_iff_sum]; exact hfree), List.filter_nil]
    have hkl : keptLeads e [g] = [0] := by
      unfold keptLeads
      rw [k2, hkf, List.map_cons, List.map_nil, h2]
      rfl
    rw [hkl] at hmb ⊢
    have hmb0 : mb = [] := by
      obtain ⟨L, hL1, -, hL3⟩ := enlarged_spec hn (lms := [(0 : Fin n → ℕ)]) (l := 0) rfl
      rw [hmb] at hL1
      cases hL1
      apply List.eq_nil_iff_forall_not_mem.mpr
      intro m hm
      exact ((hL3 m).mp hm).1 0 List.mem_cons_self fun _ => Nat.zero_le _
    subst hmb0
    simp only
    rw [show ([0] : List (Fin n → ℕ)).length = 1 from rfl, (C70_unit (by rfl) []).2]
    have hl : lmMon (0 : Fin n → ℕ) = ⟨false, some ⟨['1'], none⟩, []⟩ := by
      unfold lmMon
      rw [if_pos rfl]
      congr 1
      simp +contextual [PrintQq.facs, PrintQq.row]
    rw [List.map_cons, List.map_nil, hl]
    rfl
  · have hne : elimPart e G ≠ [] := fun h0 => hkn (by rw [k1, h0]; rfl)
    obtain ⟨mb', em, -, hlens, -, -⟩ := C63_storage hn hne fun f hf h0 => hu (elim_unit h.gb hf h0)
    rw [← k1, hmb] at em
    cases em
    refine displayLeads_text hlen hkn fun k hk => ⟨?_, ?_⟩
    · rw [k1, List.length_map] at hk
      rw [k1]
      simp only [List.getD_eq_getElem?_getD, List.getElem?_map, List.getElem?_eq_getElem hk, Option.map_some, Option.getD_some]
      exact fun h0 => hu (elim_unit h.gb (List.getElem_mem hk) h0)
    · rw [k1] at hk ⊢
      exact (hlens k (by simpa using hk)).1

end

/-- A printed text for given leading monomials. -/
theorem lm_run {f : File} {names : List (List Char)} {tss : List (List Text.Mon)} (h : InputOkQ f names tss) {e n : ℕ} (hn : names.length = e + n)
    {GQ : Set (MvPolynomial (Fin (e + n)) ℚ)} (hL : Lucky e n tss GQ (LuckyPrime (n := e + n) (OKind.be e).mo tss))
    {bs : List (MvPolynomial (Fin n) ℚ)} (hB : Basis e n GQ bs) {us : List ℕ} {r : Res (List Char)} (hr : RunLm e n f.text us r)
    (hN : ∀ p ∈ us, LuckyPrime (n := e + n) (OKind.be e).mo tss p) :
    (r = .undefined ∧ bs = []) ∨ bs ≠ [] ∧ r = .printed (Text.leadHeader (names.drop e) bs.length ++
      basisText (bs.map fun b => Text.line (names.drop e) [lmMon (OKind.drl.mo.degree b)])) := by
  have hE := h.expanded
  rw [hn] at hE
  obtain ⟨names', ps, h1, h2, h3, h4⟩ := hr
  rw [read_fileQ h.file] at h1
  have h1 := Option.some.inj h1
  injection h1 with e1 e2 e3
  injection e3 with e3
  subst e1 e3
  rw [import_allQ h.file.polys h.expanded] at h4
  obtain ⟨Z, p, b, hi, hc, rfl, rfl⟩ := h4
  rw [h2] at hi
  obtain ⟨tss', p1, p2⟩ := input_parts h3 h.file.terms hE hi
  have hp := hN p List.mem_cons_self
  cases hc with
  | first c1 c2 c3 =>
    obtain ⟨k1, -⟩ := first_ok h.file.terms hL p1 p2 (by rintro t ⟨⟩) c1 hp c2
    obtain ⟨m1, m2⟩ := lm_text h3 hL hB hp k1 c3 hn
    exact .inr ⟨m1, by rw [Res.map, m2, headerLm_eq]⟩
  | undefined c1 c2 c3 =>
    obtain ⟨k1, -⟩ := first_ok h.file.terms hL p1 p2 (by rintro t ⟨⟩) c1 hp c2
    refine .inl ⟨rfl, ?_⟩
    have hpf := Fact.mk k1.prime
    have hF := elim_image hL hB hp k1
    rw [(elim_leads k1.gb).1] at c3
    by_contra h0
    cases hl : ((elimPart e _).map F4.lead).getLast? with
    | none =>
      rw [List.getLast?_eq_none_iff, List.map_eq_nil_iff] at hl
      rw [hl] at hF
      cases hF
      exact h0 rfl
    | some l =>
      obtain ⟨L, hL1, -⟩ := enlarged_spec h3 hl
      rw [hL1] at c3
      cases c3

/-- **C86**: for every input file over the rationals, with `bs` the reduced Gröbner basis of the elimination ideal for the degree reverse lexicographical order: if the prime of an
execution of `msolve -g 1` is lucky, the execution prints the comments, with the number of elements of `bs`, and the leading monomials of the elements of `bs`, in increasing order,
each with coefficient one; if nothing is left after the elimination, it is undefined. -/
theorem C86_leads {f : File} {names : List (List Char)} {tss : List (List Text.Mon)} (h : InputOkQ f names tss) (e n : ℕ)
    (hn : names.length = e + n) :
    ∃ bs : List (MvPolynomial (Fin n) ℚ),
      IsReducedGroebner OKind.drl.mo ((idealQ (e + n) tss).comap (rename (Fin.natAdd e)).toRingHom) { b | b ∈ bs } ∧
      (bs.Pairwise fun a b => OKind.drl.mo.toSyn (OKind.drl.mo.degree a) < OKind.drl.mo.toSyn (OKind.drl.mo.degree b)) ∧
      ∀ (us : List ℕ) (r : Res (List Char)), RunLm e n f.text us r → (∀ p ∈ us, LuckyPrime (n := e + n) (OKind.be e).mo tss p) →
        (r = .undefined ∧ bs = []) ∨
        bs ≠ [] ∧ ∃ tl : List Text.Mon, r = .printed (Text.leadHeader (names.drop e) bs.length ++ basisText (tl.map fun t => Text.line (names.drop e) [t])) ∧
          List.Forall₂ (fun b t => t.numer = 1 ∧ t.denom = 1 ∧ Finsupp.equivFunOnFinite.symm (t.vec n) = OKind.drl.mo.degree b) bs tl := by
  have hE := h.expanded
  rw [hn] at hE
  obtain ⟨GQ, hL⟩ := lucky_exists hE
  obtain ⟨bs, hB, hgb⟩ := basis_exists hL
  rw [idealOver_rat hE] at hgb
  refine ⟨bs, hgb, hB.sorted, fun us r hr hN => ?_⟩
  rcases lm_run h hn hL hB hr hN with h1 | ⟨h1, h2⟩
  · exact .inl h1
  · refine .inr ⟨h1, bs.map fun b => lmMon (OKind.drl.mo.degree b), by rw [h2, List.map_map]; rfl, ?_⟩
    rw [List.forall₂_map_right_iff, List.forall₂_same]
    intro b _
    refine ⟨(lmMon_numer _).1, (lmMon_numer _).2, ?_⟩
    rw [lmMon_vec]
    exact Finsupp.equivFunOnFinite.symm_apply_apply _

/-- **C86**: the text does not depend on the lucky prime or on the order in which the generators are sorted. -/
theorem C86_same {f : File} {names : List (List Char)} {tss : List (List Text.Mon)} (h : InputOkQ f names tss) {e n : ℕ} (hn : names.length = e + n)
    {us us' : List ℕ} {r r' : Res (List Char)} (hr : RunLm e n f.text us r) (hr' : RunLm e n f.text us' r')
    (hN : ∀ p ∈ us ++ us', LuckyPrime (n := e + n) (OKind.be e).mo tss p) : r = r' := by
  have hE := h.expanded
  rw [hn] at hE
  obtain ⟨GQ, hL⟩ := lucky_exists hE
  obtain ⟨bs, hB, -⟩ := basis_exists hL
  have h1 := lm_run h hn hL hB hr fun p hp => hN p (List.mem_append_left _ hp)
  have h2 := lm_run h hn hL hB hr' fun p hp => hN p (List.mem_append_right _ hp)
  rcases h1 with ⟨h1, h0⟩ | ⟨h0, h1⟩ <;> rcases h2 with ⟨h2, h3⟩ | ⟨h3, h2⟩
  · rw [h1, h2]
  · exact absurd h0 h3
  · exact absurd h3 h0
  · rw [h1, h2]

/-! ### Executions -/

/-- The arrays for `x^2 - y^2`, `x y + y^2`. -/
theorem holds_B : Holds (0 + 2) wTermsB [2, 2] [2, 0, 0, 2, 1, 1, 0, 2] [1, 1, -1, 1, 1, 1, 1, 1] :=
  ⟨by decide +kernel, by decide +kernel, by decide +kernel⟩

theorem runA_B : RunA exExt 1 0 2 [2, 2] [2, 0, 0, 2, 1, 1, 0, 2] [1, 1, -1, 1, 1, 1, 1, 1] [1073741827, 1073741831, 1073741833, 1073741839]
    (.printed ⟨2, [2, 2], [1, 1, 0, 2, 2, 0, 0, 2], [1, 1, 1, -1], 4⟩) := by
  have h : (runLifted (wG 1073741827 1073741827) 1073741827 ([1073741831, 1073741833, 1073741839].map fun q => ((q, some (wG q q)), false))).bind
      (exportArrays 0) = some ⟨2, [2, 2], [1, 1, 0, 2, 2, 0, 0, 2], [1, 1, 1, -1], 4⟩ := by decide +kernel
  obtain ⟨b, hb, hA⟩ := Option.bind_eq_some_iff.mp h
  refine ⟨by norm_num, ?_⟩
  rw [readGens_holds holds_B]
  simp only
  rw [import_allQ wFileB_ok.file.polys (n := 0 + 2) wFileB_ok.expanded]
  refine ⟨wZ (-1), .printed b, input_w wFileB_ok.expanded (by decide +kernel) (by decide +kernel), core_w id 1073741827
    ⟨2 ^ 30, le_rfl, by norm_num, next_w0, by decide +kernel⟩ (by decide +kernel) [1073741831, 1073741833, 1073741839] ?_ ?_ hb, by rw [returned, hA]⟩
  · decide +kernel
  · refine .cons_cons (.here ?_ (by decide +kernel) (by norm_num)) (.cons_cons (.here ?_ (by decide +kernel) (by norm_num))
      (.cons_cons (.here ?_ (by decide +kernel) (by norm_num)) (.singleton _)))
    · rw [stepPrime, next_w1]; rfl
    · rw [stepPrime, next_w2]; rfl
    · rw [stepPrime, next_w3]; rfl

example : wTermsB ≠ [] ∧ (∀ ts ∈ wTermsB, ts ≠ []) ∧ (∀ ts ∈ wTermsB, ExpandedQ (0 + 2) ts) ∧
    Holds (0 + 2) wTermsB [2, 2] [2, 0, 0, 2, 1, 1, 0, 2] [1, 1, -1, 1, 1, 1, 1, 1] ∧ CRT.InvSpec exExt.inv ∧ LiftGB.McrtSpec exExt.mcrt ∧
    RunA exExt 1 0 2 [2, 2] [2, 0, 0, 2, 1, 1, 0, 2] [1, 1, -1, 1, 1, 1, 1, 1] [1073741827, 1073741831, 1073741833, 1073741839]
      (.printed ⟨2, [2, 2], [1, 1, 0, 2, 2, 0, 0, 2], [1, 1, 1, -1], 4⟩) ∧
    (∀ p ∈ [1073741827, 1073741831, 1073741833, 1073741839], LuckyPrime (n := 0 + 2) (OKind.be 0).mo wTermsB p) ∧
    [1073741827, 1073741831, 1073741833, 1073741839].Nodup :=
  ⟨wFileB_ok.file.polys, wFileB_ok.file.terms, wFileB_ok.expanded, holds_B, exExt_inv, exExt_mcrt, runA_B, fun p _ => lucky_B p, by decide⟩

/-- **C85**: if every generator in the arrays has a coefficient zero, the program ends, though the basis is defined. -/
theorem C85_zero (E : LiftGB.Ext) (nt e n : ℕ) (hn : 0 < n) {tss : List (List Text.Mon)} (hz : ∀ ts ∈ tss, ∃ t ∈ ts, t.numer = 0)
    {lens : List ℕ} {exps cfs : List ℤ} (ha : Holds (e + n) tss lens exps cfs) (us : List ℕ) (r : Res Verif.ExportQq.Arrays) :
    RunA E nt e n lens exps cfs us r ↔ r = .stopped ∧ us = [] := by
  have hbad : (tss.map (qqPoly (e + n))).filter invalidQ = tss.map (qqPoly (e + n)) := by
    rw [List.filter_eq_self]
    intro f hf
    obtain ⟨ts, hts, rfl⟩ := List.mem_map.mp hf
    obtain ⟨t, ht, h0⟩ := hz ts hts
    rw [invalidQ, invalid, List.any_eq_true]
    exact ⟨0, List.mem_flatMap.mpr ⟨((t.numer, t.denom), expoRow (e + n) t), List.mem_map_of_mem ht, by simp [h0]⟩, by simp⟩
  have himp : importGens invalidQ 0 (tss.map (qqPoly (e + n))) = .stop := by
    unfold importGens
    simp only [hbad]
    rw [if_pos]
    split_ifs with h
    · rw [h]; rfl
    · simp
  unfold RunA
  rw [readGens_holds ha]
  simp only [himp]
  exact ⟨fun h => h.2, fun h => ⟨hn, h⟩⟩

example : (∀ ts ∈ [[(⟨false, some ⟨['0'], none⟩, [⟨0, none⟩]⟩ : Text.Mon)]], ∃ t ∈ ts, t.numer = 0) ∧
    Holds (0 + 2) [[⟨false, some ⟨['0'], none⟩, [⟨0, none⟩]⟩]] [1] [1, 0] [0, 1] :=
  ⟨by decide +kernel, by decide +kernel, by decide +kernel, by decide +kernel⟩

/-- An execution for one prime. -/
theorem runLm_w {f : File} {tss : List (List Text.Mon)} (hok : InputOkQ f twoNames tss) {c : ℤ} (ht : tss.map (intTerms (0 + 2)) = wZ c)
    (hp : primitive (wZ c) = some (wZ c)) (p0 : ℕ) (h0 : FirstPrime (wZ c) p0)
    (hm0 : modGens p0 (wZ c) = some (trF p0 p0)) {mb : List (Fin 2 → ℕ)} (hmb : enlarged (keptLeads (n := 2) 0 (wG p0 p0)) = .done mb) :
    RunLm 0 2 f.text [p0] (.printed (printLm twoNames 0 ⟨keptLeads (n := 2) 0 (wG p0 p0), mb, (keptLeads (n := 2) 0 (wG p0 p0)).length,
        fun k => ⟨lensOf (keptLeads (n := 2) 0 (wG p0 p0)) mb k, fun _ _ => 0, fun _ => 0, fun _ => 0, fun _ => 0, 1⟩⟩)) := by
  obtain ⟨hR, -⟩ := firstPrime_spec h0
  have hcfg : CfgOk (stdCfg (n := 2) .drl p0 1) := stdCfg_ok _ hR.1 hR.lt31 one_pos
  have : Fact p0.Prime := ⟨hR.1⟩
  obtain ⟨tr, G, hL⟩ := (C66_learn hcfg (F := trF p0 p0) (trF_ok hR.1 (not_dvd_pred hR.1))).1 (by simp [trF])
  have hG : G = wG p0 p0 := learn_trF hcfg rfl hL
  subst hG
  refine ⟨twoNames, _, read_fileQ hok.file, rfl, by norm_num, ?_⟩
  rw [import_allQ hok.file.polys hok.expanded]
  exact ⟨wZ c, p0, _, input_w hok.expanded ht hp, .first h0
    ⟨stdCfg .drl p0 1, trF p0 p0, hm0, rfl, rfl, ⟨hcfg.mnsel, hcfg.upd, hcfg.sel, hcfg.sorted⟩, hL⟩ hmb, rfl, rfl⟩

/-- The printed text. -/
def wOutLm : List Char := ("#Leading ideal data\n#---\n#field characteristic: 0\n" ++
  "#variable order:       x, y\n#monomial order:       graded reverse lexicographical\n" ++
  "#length of basis:      2 elements sorted by increasing leading monomials\n#---\n[x*y, \nx^2\n]:\n").toList

theorem lm_mb : enlarged (keptLeads (n := 2) 0 (wG 1073741827 1073741827)) = .done [![0, 0], ![0, 1], ![1, 0], ![0, 2]] := by
  have h : (match enlarged (keptLeads (n := 2) 0 (wG 1073741827 1073741827)) with
      | .done mb => some mb
      | _ => none) = some [![0, 0], ![0, 1], ![1, 0], ![0, 2]] := by decide +kernel
  generalize enlarged (keptLeads (n := 2) 0 (wG 1073741827 1073741827)) = o at h
  cases o with
  | done mb => exact congrArg _ (Option.some.inj h)
  | running => exact absurd h (by simp)
  | overflow => exact absurd h (by simp)

theorem runLm_B : RunLm 0 2 wFileB.text [1073741827] (.printed wOutLm) := by
  have := runLm_w wFileB_ok (c := -1) (by decide +kernel) (by decide +kernel) 1073741827
    ⟨2 ^ 30, le_rfl, by norm_num, next_w0, by decide +kernel⟩ (by decide +kernel) lm_mb
  convert this using 2
  decide +kernel

theorem runLm_A : RunLm 0 2 wFileA.text [1073741827] (.printed wOutLm) := by
  have := runLm_w wFileA_ok (c := 1073741826) (by decide +kernel) (by decide +kernel) 1073741827
    ⟨2 ^ 30, le_rfl, by norm_num, next_w0, by decide +kernel⟩ (by decide +kernel) lm_mb
  convert this using 2
  decide +kernel

example : InputOkQ wFileB twoNames wTermsB ∧ RunLm 0 2 wFileB.text [1073741827] (.printed wOutLm) ∧
    ∀ p ∈ [1073741827], LuckyPrime (n := 0 + 2) (OKind.be 0).mo wTermsB p :=
  ⟨wFileB_ok, runLm_B, fun p _ => lucky_B p⟩

/-- **C86**: if the prime is not lucky, leading monomials are missing: for `x^2 + 1073741826 y^2`, `x y + y^2` and the prime `2^30 + 3`, `x y` and `x^2` are printed and
none of them divides the leading monomial of an element of the ideal. -/
theorem C86_unlucky : InputOkQ wFileA twoNames wTermsA ∧
    ∃ (us : List ℕ) (out : List Char) (tl : List Text.Mon) (g : MvPolynomial (Fin 2) ℚ), RunLm 0 2 wFileA.text us (.printed out) ∧
      out = Text.leadHeader twoNames 2 ++ basisText (tl.map fun t => Text.line twoNames [t]) ∧ g ∈ idealQ 2 wTermsA ∧ g ≠ 0 ∧
      ∀ t ∈ tl, ¬ Finsupp.equivFunOnFinite.symm (t.vec 2) ≤ OKind.drl.mo.degree g := by
  have hne : ((1073741826 + 1 : ℤ) : ℚ) ≠ 0 := by norm_num
  refine ⟨wFileA_ok, _, _, [⟨false, none, [⟨0, none⟩, ⟨1, none⟩]⟩, ⟨false, none, [⟨0, some ['2']⟩]⟩], _, runLm_A, by decide +kernel, wTermsA_cube, by simp, ?_⟩
  rw [MonomialOrder.degree_monomial, if_neg hne]
  intro t ht hle
  have hle := hle 0
  revert hle
  simp only [List.mem_cons, List.not_mem_nil, or_false] at ht
  rcases ht with rfl | rfl <;> simp [fs, Text.Mon.vec] <;> decide +kernel

end ExportQq
end Verif.Props
