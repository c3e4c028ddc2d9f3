import Verif.PrintQq
import Verif.Props.LiftGB
import Verif.Props.Parse

/-! Property C70: the text of a Groebner basis over the rationals determines the basis. -/

namespace Verif.Props

open Verif.PrintQq Verif.Parse Verif.Spec Verif.Spec.Text Verif.LiftStore Verif.LiftGB Verif.CRT

variable {n : ℕ}

/-- The monomial `m` of the polynomial ring as it is read: the exponents of the variables behind the elimination block. -/
def readRow (e : ℕ) (m : Fin (e + n) → ℕ) : List ℤ := List.ofFn fun j : Fin n => (m (Fin.natAdd e j) : ℤ)

theorem qRead_export (e : ℕ) {ldm : Fin n → ℕ} {mb : List (Fin n → ℕ)} {P : MPoly} (h : ∀ l < P.len, P.qd l = 1) :
    qRead ldm mb P = (exportTerms e ldm mb P).map fun t => ((t.2, 1), readRow e t.1) := by
  have hr : ∀ m : Fin n → ℕ, readRow e (embed e m) = List.ofFn fun j => (m j : ℤ) := by
    intro m
    unfold readRow embed
    simp only [Fin.append_right]
  unfold qRead exportTerms
  rw [List.map_cons, List.map_map, hr]
  congr 1
  apply List.map_congr_left
  intro i hi
  rw [List.mem_filter, List.mem_reverse, List.mem_range] at hi
  rw [Function.comp_apply, hr, h i hi.1]

/-- C70: the printed polynomial is read as the terms of the polynomial, numerators and denominators, without loss. -/
theorem C70_poly {vnames : List (List Char)} {e : ℕ} (hnm : ∀ nm ∈ vnames.drop e, Name nm) (hnd : (vnames.drop e).Nodup)
    (hlen : vnames.length = e + n) {ldm : Fin n → ℕ} {mb : List (Fin n → ℕ)} {P : MPoly} (h : Printable ldm mb P)
    (h1 : ∀ i, ldm i < 2 ^ 31) (h2 : ∀ m ∈ mb, ∀ i, m i < 2 ^ 31)
    (hfit : ∀ u ∈ qMons n ldm mb P, Fits (vnames.drop e) u) {tl : List Char} (htl : tl = [] ∨ tl = [',']) :
    parseQq (vnames.drop e) (displayModpoly vnames e ldm mb P ++ tl) = some
      (((P.lm, 1), List.ofFn fun i => (ldm i : ℤ)) ::
        ((List.range P.len).reverse.filter fun i => decide (P.qn i ≠ 0)).map fun i =>
          ((P.qn i, P.qd i), List.ofFn fun j => (mb.getD i 0 j : ℤ))) := by
  have hL : (vnames.drop e).length = n := by rw [List.length_drop]; omega
  rw [displayModpoly_line hlen h]
  have hok := qMons_ok hL h h1 h2
  have hr := parseQq_line hnm hnd (t := qMon false n P.lm 1 (row ldm)) (ts := (qMons n ldm mb P).tail) hok hfit htl
  rw [hL] at hr
  rw [show qMons n ldm mb P = qMon false n P.lm 1 (row ldm) :: (qMons n ldm mb P).tail from rfl, hr]
  exact congrArg some (qqPoly_qMons h)

/-- The separator of the printed list. -/
def sep : List Char := [',', ' ', '\n']

theorem flatMap_sep (sp : List Char) (t : ℕ → List Char) (N : ℕ) (a : List Char) :
    ((List.range N).flatMap fun k => t k ++ sp) ++ a = List.intercalate sp ((List.range N).map t ++ [a]) := by
  have key : ∀ M : List ℕ, (M.flatMap fun k => t k ++ sp) ++ a = List.intercalate sp (M.map t ++ [a]) := by
    intro M
    induction M with
    | nil => simp [List.intercalate]
    | cons k M ih =>
      rw [List.flatMap_cons, List.append_assoc, ih, List.map_cons, List.cons_append]
      cases hM : M.map t ++ [a] with
      | nil => simp at hM
      | cons q qs => rw [List.intercalate_cons_cons]
  exact key _

theorem displayBasis_text (vnames : List (List Char)) (e : ℕ) (ldm mb : List (Fin n → ℕ)) {npol : ℕ} (h : npol ≠ 0) (polys : ℕ → MPoly) :
    displayBasis vnames e ldm mb npol polys = '[' :: (List.intercalate sep
      ((List.range npol).map fun k => displayModpoly vnames e (ldm.getD k 0) mb (polys k)) ++ ['\n']) ++ [']', ':', '\n'] := by
  obtain ⟨N, rfl⟩ := Nat.exists_eq_succ_of_ne_zero h
  unfold displayBasis
  rw [if_neg h, Nat.succ_eq_add_one, Nat.add_sub_cancel, List.range_succ, List.map_append, List.map_cons, List.map_nil,
    ← flatMap_sep sep]
  simp [sep]

theorem filter_intercalate {ls : List (List Char)} (h : ∀ l ∈ ls, ' ' ∉ l) :
    (List.intercalate sep ls).filter (fun c => c ≠ ' ') = List.intercalate [',', '\n'] ls := by
  induction ls with
  | nil => rfl
  | cons l ls ih =>
    have hl : l.filter (fun c => decide (c ≠ ' ')) = l := List.filter_eq_self.mpr fun c hc => by
      have : c ≠ ' ' := by rintro rfl; exact h l List.mem_cons_self hc
      simpa using this
    cases ls with
    | nil => simpa [List.intercalate] using hl
    | cons l' ls =>
      rw [List.intercalate_cons_cons, List.intercalate_cons_cons, List.filter_append, List.filter_append, hl,
        ih fun q hq => h q (List.mem_cons_of_mem _ hq)]
      rfl

/-- A list of lines of the grammar, with spaces behind the commas, as a file. -/
theorem readFile_lines {names : List (List Char)} (hnm : ∀ nm ∈ names, Name nm) (hnd : names.Nodup) (hne : names ≠ [])
    (hshort : ∀ nm ∈ names, nm.length ≤ 47) {tss : List (List Mon)} (htss : tss ≠ []) (hts : ∀ ts ∈ tss, ts ≠ [])
    (hok : ∀ ts ∈ tss, ∀ t ∈ ts, t.Ok names) (hfit : ∀ ts ∈ tss, ∀ t ∈ ts, Fits names t) :
    readFile (List.intercalate [','] names ++ '\n' :: (['0'] ++ '\n' :: (List.intercalate sep (tss.map (line names)) ++ ['\n']))) =
      some ⟨names, 0, .qq (tss.map (qqPoly names.length))⟩ := by
  have hfile : FileOk ⟨names, ['0'], tss.map (line names), ['\n']⟩ names 0 tss :=
    { name := hnm
      nodup := hnd
      some := hne
      padded := by
        rw [List.forall₂_same]
        exact fun nm _ => ⟨[], [], by simp, by simp, by simp⟩
      short := hshort
      char := ⟨['0'], [], by simp, ⟨by simp, by decide⟩, by decide, by simp⟩
      small := by norm_num
      polys := htss
      spaced := by
        rw [List.forall₂_map_left_iff, List.forall₂_same]
        intro f hff
        have hch := line_chars hnm (hok f hff)
        refine ⟨List.filter_eq_self.mpr fun c hc => ?_, fun h => ?_, fun h => (hch _ h).1 rfl⟩
        · have h1 := (hch c hc).2
          have h2 : c ≠ ' ' := by rintro rfl; revert h1; decide
          have h3 : c ≠ '\r' := by rintro rfl; revert h1; decide
          simp [h2, h3]
        · have h1 := (hch _ h).2
          revert h1; decide
      fin := by simp
      terms := hts
      ok := hok
      fits := hfit }
  have hnl : '\n' ∉ List.intercalate [','] names := by
    clear hfile hnd hok hfit hshort hne
    induction names with
    | nil => simp [List.intercalate]
    | cons a ns ih =>
      have ha : '\n' ∉ a := fun h => by
        have := ((hnm a List.mem_cons_self).2.2 _ h).2
        revert this; decide
      cases ns with
      | nil => simpa [List.intercalate] using ha
      | cons b ns =>
        rw [List.intercalate_cons_cons, List.mem_append, List.mem_append]
        rintro ((h1 | h1) | h1)
        · exact ha h1
        · revert h1; decide
        · exact ih (fun s hs => hnm s (List.mem_cons_of_mem _ hs)) h1
  obtain ⟨qs, h1, h2⟩ := readFile_prefix hfile
  rw [readFile_spaces hnl (by decide) (by simp)]
  rw [List.filter_append, filter_intercalate]
  · have ht : File.text ⟨names, ['0'], tss.map (line names), ['\n']⟩ = List.intercalate [','] names ++ '\n' ::
        (['0'] ++ '\n' :: (List.intercalate [',', '\n'] (tss.map (line names)) ++ List.filter (fun c => decide (c ≠ ' ')) ['\n'])) := rfl
    rw [← ht, h2, if_pos (by simp), mapM_forall₂ (G := qqPoly names.length)]
    · rfl
    · rw [List.forall₂_iff_get] at h1 ⊢
      refine ⟨h1.1, fun i hi hi2 => ?_⟩
      obtain ⟨tl, htl, hc⟩ := h1.2 i hi hi2
      have hmem := List.get_mem tss ⟨i, hi2⟩
      rw [hc]
      generalize tss.get ⟨i, hi2⟩ = ts at hmem
      have hne := hts ts hmem
      obtain ⟨t, ts, rfl⟩ := List.exists_cons_of_ne_nil hne
      exact parseQq_line hnm hnd (hok _ hmem) (hfit _ hmem) htl
  · intro l hl h
    obtain ⟨ts, hts', rfl⟩ := List.mem_map.mp hl
    have := (line_chars hnm (hok ts hts') _ h).2
    revert this; decide

/-- C70: the printed list, without the bracket in front of it and `]:` behind it, is the part of an input file behind the names
and the characteristic, and is read as the polynomials. -/
theorem C70_basis {vnames : List (List Char)} {e : ℕ} (hnm : ∀ nm ∈ vnames.drop e, Name nm) (hnd : (vnames.drop e).Nodup)
    (hlen : vnames.length = e + n) (hn : 1 ≤ n) (hshort : ∀ nm ∈ vnames.drop e, nm.length ≤ 47) {ldm mb : List (Fin n → ℕ)} {npol : ℕ}
    (hnpol : npol ≠ 0) {polys : ℕ → MPoly} (h : ∀ k < npol, Printable (ldm.getD k 0) mb (polys k)) (hq : ∀ k < npol, ∀ l < (polys k).len, (polys k).qd l = 1)
    (h1 : ∀ k < npol, ∀ i, ldm.getD k 0 i < 2 ^ 31) (h2 : ∀ m ∈ mb, ∀ i, m i < 2 ^ 31)
    (hfit : ∀ k < npol, ∀ u ∈ qMons n (ldm.getD k 0) mb (polys k), Fits (vnames.drop e) u) :
    ∃ inner, displayBasis vnames e ldm mb npol polys = '[' :: inner ++ "]:\n".toList ∧
      readFile (List.intercalate [','] (vnames.drop e) ++ "\n0\n".toList ++ inner) =
        some ⟨vnames.drop e, 0, .qq ((List.range npol).map fun k =>
          (exportTerms e (ldm.getD k 0) mb (polys k)).map fun t => ((t.2, 1), readRow e t.1))⟩ := by
  have hL : (vnames.drop e).length = n := by rw [List.length_drop]; omega
  refine ⟨_, displayBasis_text vnames e ldm mb hnpol polys, ?_⟩
  have hm : ((List.range npol).map fun k => displayModpoly vnames e (ldm.getD k 0) mb (polys k)) =
      ((List.range npol).map fun k => qMons n (ldm.getD k 0) mb (polys k)).map (line (vnames.drop e)) := by
    rw [List.map_map]
    apply List.map_congr_left
    intro k hk
    exact displayModpoly_line hlen (h k (List.mem_range.mp hk))
  rw [hm]
  have hr := readFile_lines hnm hnd (by intro h0; rw [h0] at hL; simp at hL; omega) hshort
    (tss := (List.range npol).map fun k => qMons n (ldm.getD k 0) mb (polys k)) (by simpa using hnpol)
    (by intro ts hts; obtain ⟨k, -, rfl⟩ := List.mem_map.mp hts; simp [qMons])
    (by intro ts hts; obtain ⟨k, hk, rfl⟩ := List.mem_map.mp hts; rw [List.mem_range] at hk; exact qMons_ok hL (h k hk) (h1 k hk) h2)
    (by intro ts hts; obtain ⟨k, hk, rfl⟩ := List.mem_map.mp hts; exact hfit k (List.mem_range.mp hk))
  rw [List.append_assoc]
  refine hr.trans ?_
  rw [List.map_map, hL]
  congr 3
  apply List.map_congr_left
  intro k hk
  rw [List.mem_range] at hk
  rw [Function.comp_apply, qqPoly_qMons (h k hk), qRead_export e (hq k hk)]

/-- C70: the printed list of leading monomials is read as these monomials with coefficient one. -/
theorem C70_leads {vnames : List (List Char)} {e : ℕ} (hnm : ∀ nm ∈ vnames.drop e, Name nm) (hnd : (vnames.drop e).Nodup)
    (hlen : vnames.length = e + n) (hn : 1 ≤ n) (hshort : ∀ nm ∈ vnames.drop e, nm.length ≤ 47) {ldm : List (Fin n → ℕ)} {npol : ℕ}
    (hnpol : npol ≠ 0) {polys : ℕ → MPoly} (h : ∀ k < npol, ldm.getD k 0 ≠ 0 ∧ (polys k).len ≠ 0)
    (h1 : ∀ k < npol, ∀ i, ldm.getD k 0 i < 2 ^ 31)
    (hfit : ∀ k < npol, Fits (vnames.drop e) (qMon false n 1 1 (row (ldm.getD k 0)))) :
    ∃ inner, displayLeads vnames e ldm npol polys = '[' :: inner ++ "]:\n".toList ∧
      readFile (List.intercalate [','] (vnames.drop e) ++ "\n0\n".toList ++ inner) =
        some ⟨vnames.drop e, 0, .qq ((List.range npol).map fun k => [((1, 1), List.ofFn fun j => (ldm.getD k 0 j : ℤ))])⟩ := by
  have hL : (vnames.drop e).length = n := by rw [List.length_drop]; omega
  have hrow : ∀ m : Fin n → ℕ, (row m).length = n := fun m => by simp [row]
  have hline : ∀ k < npol, (if (polys k).len = 0 then displayMonomial (named vnames e (ldm.getD k 0))
      else displayMonomialSingle false (named vnames e (ldm.getD k 0))) = line (vnames.drop e) [qMon false n 1 1 (row (ldm.getD k 0))] := by
    intro k hk
    rw [if_neg (h k hk).2]
    have := qMon_signed (names := vnames.drop e) false 1 (d := 1) one_pos (e := row (ldm.getD k 0)) (by rw [hL, hrow])
      (by rw [hL]; exact facs_row rfl (h k hk).1)
    rw [hL] at this
    simp only [and_self, if_true, List.nil_append] at this
    unfold named
    rw [← this]
    simp [line]
  refine ⟨List.intercalate sep (((List.range npol).map fun k => [qMon false n 1 1 (row (ldm.getD k 0))]).map (line (vnames.drop e))) ++ ['\n'],
    ?_, ?_⟩
  · have hm : (((List.range npol).map fun k => [qMon false n 1 1 (row (ldm.getD k 0))]).map (line (vnames.drop e))) =
        (List.range npol).map fun k => if (polys k).len = 0 then displayMonomial (named vnames e (ldm.getD k 0))
          else displayMonomialSingle false (named vnames e (ldm.getD k 0)) := by
      rw [List.map_map]
      apply List.map_congr_left
      intro k hk
      exact (hline k (List.mem_range.mp hk)).symm
    rw [hm]
    obtain ⟨N, rfl⟩ := Nat.exists_eq_succ_of_ne_zero hnpol
    unfold displayLeads
    simp only
    rw [if_neg hnpol, Nat.succ_eq_add_one, Nat.add_sub_cancel, List.range_succ, List.map_append, List.map_cons, List.map_nil,
      ← flatMap_sep sep]
    simp [sep]
  · rw [List.append_assoc]
    refine (readFile_lines hnm hnd (by intro h0; rw [h0] at hL; simp at hL; omega) hshort
      (tss := (List.range npol).map fun k => [qMon false n 1 1 (row (ldm.getD k 0))]) (by simpa using hnpol)
      (by intro ts hts; obtain ⟨k, -, rfl⟩ := List.mem_map.mp hts; simp) ?_ ?_).trans ?_
    · intro ts hts
      obtain ⟨k, hk, rfl⟩ := List.mem_map.mp hts
      rw [List.mem_range] at hk
      intro t ht
      rw [List.mem_singleton] at ht
      rw [ht]
      have := qMon_ok (names := vnames.drop e) (one := false) (z := 1) (d := 1) (e := row (ldm.getD k 0))
        (by simpa [row] using h1 k hk) (.inr (by rw [hL]; exact facs_row rfl (h k hk).1))
      rwa [hL] at this
    · intro ts hts
      obtain ⟨k, hk, rfl⟩ := List.mem_map.mp hts
      intro t ht
      rw [List.mem_singleton] at ht
      rw [ht]; exact hfit k (List.mem_range.mp hk)
    · rw [List.map_map, hL]
      congr 3
      apply List.map_congr_left
      intro k hk
      simp only [Function.comp_apply, qqPoly, List.map_cons, List.map_nil]
      rw [qMon_numer, qMon_denom _ _ _ one_pos, qMon_expoRow _ _ _ (hrow _)]
      simp [row]
      rfl

theorem drl_ne_zero {u : Fin n → ℕ} : ¬ Drl u 0 := by
  rintro (h | ⟨h, i, -, hi, -⟩)
  · simp at h
  · simp only [Pi.zero_apply] at h hi
    have := Finset.single_le_sum (f := u) (fun j _ => Nat.zero_le _) (Finset.mem_univ i)
    simp at h
    have := h i
    omega

/-- C70: after the lifting the polynomials have the form required above. -/
theorem C70_run (E : Ext) (hinv : InvSpec E.inv) (hmcrt : McrtSpec E.mcrt) {nt : ℕ} (hnt : 1 ≤ nt) (hn : 1 ≤ n)
    {lms mb : List (Fin n → ℕ)} (hne : lms ≠ []) (h0 : ∀ m ∈ lms, m ≠ 0) (hmb : enlarged lms = .done mb)
    (hlens : ∀ k < lms.length, lensOf lms mb k ≠ 0 ∧ lensOf lms mb k ≤ mb.length) (p0 : ℕ) (c0 : ℕ → ℕ → ℕ) (es : List (Ev × Bool))
    (hes : NoSkip es) (hprime : ∀ pc ∈ allImages p0 c0 es, pc.1.Prime ∧ pc.1 < 2 ^ 32)
    (hnd : ((allImages p0 c0 es).map Prod.fst).Nodup) {s0 s : St} (hs0 : initSt lms.length (lensOf lms mb) p0 c0 = some s0)
    (hrun : run E nt es s0 0 0 = .done s) :
    s.npol = lms.length ∧ ∀ k < s.npol, Printable (lms.getD k 0) mb (s.polys k) ∧ ∀ l < (s.polys k).len, (s.polys k).qd l = 1 := by
  obtain ⟨l, hl⟩ : ∃ l, lms.getLast? = some l := ⟨_, List.getLast?_eq_some_getLast hne⟩
  obtain ⟨L, hL, hsort, hmem⟩ := enlarged_spec hn hl
  rw [hmb] at hL
  cases hL
  have hz : (0 : Fin n → ℕ) ∈ mb := by
    rw [hmem]
    refine ⟨fun m hm hle => h0 m hm ?_, by simp [Hilbert.tdeg]⟩
    funext i
    simpa using hle i
  have hpos : 0 < lms.length := List.length_pos_of_ne_nil hne
  have hl0 : ∀ k < lms.length, lensOf lms mb k ≠ 0 := fun k hk => (hlens k hk).1
  have hfirst : ∀ i (hi : i < mb.length), mb[i] = 0 → i = 0 := by
    intro i hi hiz
    by_contra hne0
    have := List.pairwise_iff_getElem.mp hsort 0 i (by omega) hi (by omega)
    rw [hiz] at this
    exact drl_ne_zero this
  have hf0 : mb.getD 0 0 = 0 := by
    obtain ⟨i, hi, hiz⟩ := List.mem_iff_getElem.mp hz
    have := hfirst i hi hiz
    subst this
    rw [List.getD_eq_getElem _ _ hi, hiz]
  obtain ⟨s1, e1, hLI⟩ := initSt_spec hpos hl0 (hprime (p0, c0) List.mem_cons_self) c0
  rw [e1] at hs0
  cases hs0
  rcases run_spec E hinv hmcrt hnt es [(p0, c0)] s0 0 0 hLI hes hnd (fun pc h => hprime pc (List.mem_cons_of_mem _ h)) with
    ⟨s', _, _, e, _⟩ | ⟨s', e, _⟩ | ⟨s', pre, post, np, nbad, e, epre, hI, hf⟩
  · rw [hrun] at e; cases e
  · rw [hrun] at e; cases e
  · rw [hrun] at e
    cases e
    refine ⟨hI.hnpol, fun k hk => ?_⟩
    rw [hI.hnpol] at hk
    have hck : 2 ≤ s.check2 k := by
      unfold finished at hf
      rw [List.all_eq_true] at hf
      simpa using hf k (by rw [hI.hnpol]; exact List.mem_range.mpr hk)
    obtain ⟨-, d2⟩ := hI.inv.hdone k
    obtain ⟨N, -, -, n3, -⟩ := d2 (by omega)
    have hlen := hI.hlen k
    obtain ⟨hl1, hl2⟩ := hlens k hk
    refine ⟨⟨by rw [hlen]; exact hl1, n3.1, ?_, hf0, ?_, fun i hi => ?_⟩, fun i hi => (n3.2 i hi).1⟩
    · rw [List.getD_eq_getElem _ _ hk]; exact h0 _ (List.getElem_mem _)
    · intro i hi hi0 hiz
      rw [List.getD_eq_getElem _ _ (by omega)] at hiz
      exact hi0 (hfirst i (by omega) hiz)
    · rw [(n3.2 i hi).1]; exact ⟨one_pos, fun _ => rfl⟩

/-- C70: the basis of the unit ideal, which is not lifted: one polynomial without slots. -/
theorem C70_unit {vnames : List (List Char)} {e : ℕ} {polys : ℕ → MPoly} (h : (polys 0).len = 0) (mb : List (Fin n → ℕ)) :
    displayBasis vnames e [0] mb 1 polys = "[1\n]:\n".toList ∧ displayLeads vnames e [(0 : Fin n → ℕ)] 1 polys = "[1\n]:\n".toList := by
  have hm : displayMonomial (named vnames e (0 : Fin n → ℕ)) = ['1'] := by
    unfold displayMonomial named
    rw [if_pos]
    rw [List.all_eq_true]
    intro x hx
    have := (List.of_mem_zip hx).2
    simp only [List.mem_ofFn] at this
    obtain ⟨i, hi⟩ := this
    simp [← hi]
  constructor
  · simp [displayBasis, displayModpoly, h, hm]
  · simp [displayLeads, h, hm]

/-- The names and polynomials of the example: the variable `t` has been eliminated, `3*x^2*y+x*y-7*y-2` and `x^3+5`. -/
def pqVars : List (List Char) := ["t".toList, "x".toList, "y1".toList]
def pqLdm : List (Fin 2 → ℕ) := [![2, 1], ![3, 0]]
def pqMb : List (Fin 2 → ℕ) := [![0, 0], ![0, 1], ![1, 0], ![1, 1]]
def pqPolys (k : ℕ) : MPoly :=
  if k = 0 then ⟨4, fun _ _ => 0, fun _ => 0, fun l => [-2, -7, 0, 1].getD l 0, fun _ => 1, 3⟩
  else ⟨4, fun _ _ => 0, fun _ => 0, fun l => [5, 0, 0, 0].getD l 0, fun _ => 1, 1⟩

theorem pqVars_ok : (∀ nm ∈ pqVars.drop 1, Name nm) ∧ (pqVars.drop 1).Nodup := exNames_ok

theorem pqMb_ne {i : ℕ} (h : i < 4) (h0 : i ≠ 0) : pqMb.getD i 0 ≠ 0 := by
  have : ∀ i ∈ [1, 2, 3], pqMb.getD i 0 0 ≠ 0 ∨ pqMb.getD i 0 1 ≠ 0 := by decide
  intro hh
  rcases this i (by simp; omega) with h1 | h1 <;> exact h1 (by rw [hh]; rfl)

theorem pqPolys_ok : ∀ k < 2, Printable (pqLdm.getD k 0) pqMb (pqPolys k) := by
  have hl : ∀ k ∈ [0, 1], pqLdm.getD k 0 0 ≠ 0 := by decide
  intro k hk
  have hk' : k = 0 ∨ k = 1 := by omega
  refine ⟨?_, ?_, ?_, ?_, ?_, ?_⟩
  · rcases hk' with rfl | rfl <;> decide
  · rcases hk' with rfl | rfl <;> decide
  · intro h
    exact hl k (by simpa using hk') (by rw [h]; rfl)
  · funext i; fin_cases i <;> rfl
  · intro i hi h0
    refine pqMb_ne ?_ h0
    rcases hk' with rfl | rfl <;> exact hi
  · intro i _
    rcases hk' with rfl | rfl <;> exact ⟨one_pos, fun _ => rfl⟩

/-- The text of the example. -/
example : displayBasis pqVars 1 pqLdm pqMb 2 pqPolys = "[3*x^2*y1+x*y1-7*y1-2, \nx^3+5\n]:\n".toList := by decide +kernel
example : displayLeads pqVars 1 pqLdm 2 pqPolys = "[x^2*y1, \nx^3\n]:\n".toList := by decide +kernel
/-- The hypotheses of `C70_basis` hold for it. -/
example : ∃ inner, displayBasis pqVars 1 pqLdm pqMb 2 pqPolys = '[' :: inner ++ "]:\n".toList ∧
    readFile ("x,y1\n0\n".toList ++ inner) = some ⟨pqVars.drop 1, 0, .qq
      [[((3, 1), [2, 1]), ((1, 1), [1, 1]), ((-7, 1), [0, 1]), ((-2, 1), [0, 0])], [((1, 1), [3, 0]), ((5, 1), [0, 0])]]⟩ := by
  have hfit : ∀ k ∈ [0, 1], ∀ u ∈ qMons 2 (pqLdm.getD k 0) pqMb (pqPolys k), (u.body (pqVars.drop 1)).length + 3 < 50000 := by
    decide +kernel
  have hk : ∀ k, k < 2 → k = 0 ∨ k = 1 := fun k hk => by omega
  have hq : ∀ k < 2, ∀ l < (pqPolys k).len, (pqPolys k).qd l = 1 := by
    intro k h l _
    rcases hk k h with rfl | rfl <;> rfl
  have hl : ∀ k < 2, ∀ i, pqLdm.getD k 0 i < 2 ^ 31 := by
    intro k h
    rcases hk k h with rfl | rfl <;> decide
  obtain ⟨inner, h1, h2⟩ := C70_basis (n := 2) (vnames := pqVars) (e := 1) pqVars_ok.1 pqVars_ok.2 rfl (by norm_num) (by decide)
    (npol := 2) (by norm_num) pqPolys_ok hq hl (by decide) (fun k h => hfit k (by simpa using hk k h))
  refine ⟨inner, h1, ?_⟩
  refine Eq.trans (congrArg readFile ?_) (h2.trans ?_)
  · congr 1
  · decide +kernel

/-- A polynomial with denominators; vanishing coefficients must have denominator one: the text of `0/3` is malformed. -/
example : displaySlot (-2) 3 (named pqVars 1 ![1, 1]) = "-2/3*x*y1".toList ∧ displaySlot 0 3 (named pqVars 1 ![1, 1]) = "0/3*".toList := by
  decide +kernel

end Verif.Props
