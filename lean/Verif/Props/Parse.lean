import Verif.ReadFile

/-!
C42 and C58: reading of polynomials and files, printing and reading back.
-/
namespace Verif.Props
open Verif.Parse Verif.Spec.Text

/-! ### C42 -/

/-- C42: a line of the grammar over a prime field, possibly followed by a comma, is read as the polynomial written, if the numerals
satisfy `FirstNum` and `InnerNum`: no denominators, small, and no zeros behind the first term.  Not for all lines: see the theorems
below. -/
theorem C42_read_partial {names : List (List Char)} (hnm : ∀ nm ∈ names, Name nm) (hnd : names.Nodup) {p : ℕ} (hp : 0 < p) (hp2 : p < 2 ^ 31)
    {t : Mon} {ts : List Mon} (ht : ∀ u ∈ t :: ts, u.Ok names) (hfit : ∀ u ∈ t :: ts, Fits names u) (h0 : FirstNum t)
    (h1 : ∀ u ∈ ts, InnerNum u) {tl : List Char} (htl : tl = [] ∨ tl = [',']) :
    ∃ f, parseFf names p (line names (t :: ts) ++ tl) = some f ∧ List.Forall₂ (Reads p names.length) f (t :: ts) :=
  ⟨_, parseFf_line hnm hnd hp hp2 ht hfit h0 h1 htl, reads_ffPoly hp _⟩

/-- C42: over the rationals every line of the grammar is read as the polynomial written. -/
theorem C42_read_rational {names : List (List Char)} (hnm : ∀ nm ∈ names, Name nm) (hnd : names.Nodup)
    {t : Mon} {ts : List Mon} (ht : ∀ u ∈ t :: ts, u.Ok names) (hfit : ∀ u ∈ t :: ts, Fits names u)
    {tl : List Char} (htl : tl = [] ∨ tl = [',']) :
    ∃ f, parseQq names (line names (t :: ts) ++ tl) = some f ∧ List.Forall₂ (ReadsQ names.length) f (t :: ts) :=
  ⟨_, parseQq_line hnm hnd ht hfit htl, reads_qqPoly _⟩

theorem printPoly_read {names : List (List Char)} (hnm : ∀ nm ∈ names, Name nm) (hnd : names.Nodup) {p ebl : ℕ} (hp2 : p < 2 ^ 31)
    {f : List (ℕ × List ℕ)} (hne : f ≠ []) (hc : ∀ x ∈ f, 0 < x.1 ∧ x.1 < p)
    (hlen : ∀ x ∈ f, (exponentsOf ebl x.2).length = names.length) (hexp' : ∀ x ∈ f, ∀ k ∈ exponentsOf ebl x.2, k < 2 ^ 31)
    (hfit : ∀ x ∈ f, (printTerm names x.1 (exponentsOf ebl x.2)).length < 49997) {tl : List Char} (htl : tl = [] ∨ tl = [',']) :
    parseFf names p (printPoly names ebl f ++ tl) =
      some (f.map fun x => ((x.1 : ℤ), (exponentsOf ebl x.2).map (Nat.cast : ℕ → ℤ))) := by
  rw [printPoly_line hne hlen]
  obtain ⟨x, r, rfl⟩ := List.exists_cons_of_ne_nil hne
  have hx := hc x List.mem_cons_self
  have hok : ∀ u ∈ printMons names ebl (x :: r), u.Ok names := by
    intro u hu
    obtain ⟨y, hy, rfl⟩ := List.mem_map.mp hu
    exact printMon_ok (hexp' y hy)
  have hf : ∀ u ∈ printMons names ebl (x :: r), Fits names u := by
    intro u hu
    obtain ⟨y, hy, rfl⟩ := List.mem_map.mp hu
    unfold Fits
    rw [← printTerm_body (hlen y hy)]
    have := hfit y hy
    omega
  have hnum : ∀ y ∈ x :: r, ∀ a, (printMon names y.1 (exponentsOf ebl y.2)).num = some a → a.d = none ∧ dec a.n = y.1 := by
    intro y _ a ha
    simp only [printMon, Option.some.injEq] at ha
    subst ha
    exact ⟨rfl, (toDigits_digits _).2⟩
  have := parseFf_line hnm hnd (p := p) (by omega) hp2 (t := printMon names x.1 (exponentsOf ebl x.2)) (ts := printMons names ebl r) hok hf
    (fun a ha => by obtain ⟨h1, h2⟩ := hnum x List.mem_cons_self a ha; exact ⟨h1, by omega, by simp [printMon]⟩)
    (fun u hu a ha => by
      obtain ⟨y, hy, rfl⟩ := List.mem_map.mp hu
      obtain ⟨h1, h2⟩ := hnum y (List.mem_cons_of_mem _ hy) a ha
      have := hc y (List.mem_cons_of_mem _ hy)
      exact ⟨h1, by omega, by omega⟩) htl
  rw [show printMons names ebl (x :: r) = printMon names x.1 (exponentsOf ebl x.2) :: printMons names ebl r from rfl, this]
  congr 1
  simp only [ffPoly, printMons]
  rw [List.map_cons, List.map_map]
  congr 1
  · rw [printMon_numer, expoRow_print (hlen x List.mem_cons_self)]
    unfold addUntil
    rw [if_neg (by omega)]
  · apply List.map_congr_left
    intro y hy
    have := hc y (List.mem_cons_of_mem _ hy)
    simp only [Function.comp]
    rw [printMon_numer, expoRow_print (hlen y (List.mem_cons_of_mem _ hy)), Int.emod_eq_of_lt (by omega) (by omega)]

/-- How exponents are stored (`set_exponent_vector`, io.c 25-53): behind a degree, or in two blocks, of which the first has
`ebl - 1` elements, behind a degree each. -/
def Stored (ebl : ℕ) (e ev : List ℕ) : Prop :=
  (ebl = 0 ∧ ∃ d, ev = d :: e) ∨ (0 < ebl ∧ ∃ a b d d', e = a ++ b ∧ a.length + 1 = ebl ∧ ev = d :: a ++ d' :: b)

theorem Stored.exponentsOf {ebl : ℕ} {e ev : List ℕ} (h : Stored ebl e ev) : exponentsOf ebl ev = e := by
  rcases h with ⟨rfl, d, rfl⟩ | ⟨h0, a, b, d, d', rfl, rfl, rfl⟩
  · simp [Parse.exponentsOf]
  · simp [Parse.exponentsOf]

/-- A list of terms and the stored list. -/
def StoredPoly (ebl : ℕ) (f g : List (ℕ × List ℕ)) : Prop := List.Forall₂ (fun x y => y.1 = x.1 ∧ Stored ebl x.2 y.2) f g

theorem StoredPoly.eq {ebl : ℕ} {f g : List (ℕ × List ℕ)} (h : StoredPoly ebl f g) :
    f = g.map fun y => (y.1, exponentsOf ebl y.2) := by
  unfold StoredPoly at h
  induction h with
  | nil => rfl
  | cons h _ ih =>
    rw [List.map_cons, ← ih, h.2.exponentsOf, h.1]

/-- C42: a printed basis element `f`, stored as `g`, is read back as the same polynomial. -/
theorem C42_print {names : List (List Char)} (hnm : ∀ nm ∈ names, Name nm) (hnd : names.Nodup) {p ebl : ℕ} (hp2 : p < 2 ^ 31)
    {f g : List (ℕ × List ℕ)} (hg : StoredPoly ebl f g) (hne : f ≠ []) (hc : ∀ x ∈ f, 0 < x.1 ∧ x.1 < p)
    (hlen : ∀ x ∈ f, x.2.length = names.length) (hexp : ∀ x ∈ f, ∀ k ∈ x.2, k < 2 ^ 31)
    (hfit : ∀ x ∈ f, (printTerm names x.1 x.2).length < 49997) {tl : List Char} (htl : tl = [] ∨ tl = [',']) :
    parseFf names p (printPoly names ebl g ++ tl) = some (f.map fun x => ((x.1 : ℤ), x.2.map (Nat.cast : ℕ → ℤ))) := by
  obtain rfl := hg.eq
  rw [List.forall_mem_map] at hc hlen hexp hfit
  rw [printPoly_read hnm hnd hp2 (by simpa using hne) hc hlen hexp hfit htl, List.map_map]
  rfl

/-- C42 fails: behind the first term the coefficient 0 is read as 1. -/
theorem C42_zero_coefficient : parseFf [['x'], ['y']] 7 "x+0*y".toList = some [(1, [1, 0]), (1, [0, 1])] := by decide +kernel
/-- C42 fails: the coefficient 0 with a minus sign is read as minus 1, also in the first term. -/
theorem C42_minus_zero : parseFf [['x'], ['y']] 7 "-0*x".toList = some [(6, [1, 0])] := by decide +kernel
/-- C42 fails: a factor that occurs twice counts once. -/
theorem C42_repeated_factor : parseFf [['x'], ['y']] 7 "x*x".toList = some [(1, [1, 0])] := by decide +kernel
/-- C42 fails: of two numbers in a product the second one is ignored. -/
theorem C42_two_numbers : parseFf [['x'], ['y']] 7 "2*3*x".toList = some [(2, [1, 0])] := by decide +kernel
/-- C42 fails: a name that is not a variable is ignored. -/
theorem C42_unknown_name : parseFf [['x'], ['y']] 7 "z*x".toList = some [(1, [1, 0])] := by decide +kernel
/-- C42 fails: the first coefficient is cut to 32 bits before it is reduced: 2^32 is read as 1, not as 4. -/
theorem C42_large_first : parseFf [['x'], ['y']] 7 "4294967296*x".toList = some [(1, [1, 0])] ∧ (2 ^ 32 : ℤ) % 7 = 4 := by decide +kernel
/-- C42 fails: over a prime field denominators are ignored. -/
theorem C42_denominator : parseFf [['x'], ['y']] 7 "1/2*x".toList = some [(1, [1, 0])] := by decide +kernel
/-- C42 fails: a plus sign in front of the first term leads to an access at index 2^32 - 1 of the term. -/
theorem C42_leading_plus : parseFf [['x'], ['y']] 7 "+x".toList = none := by decide +kernel
/-- C42: the first coefficient is not reduced modulo the prime, the others are. -/
theorem C42_not_reduced : parseFf [['x'], ['y']] 7 "9*x+9*y".toList = some [(9, [1, 0]), (2, [0, 1])] := by decide +kernel

/-- A polynomial stored with one block and with two blocks, and its print. -/
example : StoredPoly 0 [(3, [12, 1]), (2, [0, 0])] [(3, [13, 12, 1]), (2, [0, 0, 0])] ∧
    StoredPoly 2 [(3, [12, 1]), (2, [0, 0])] [(3, [12, 12, 1, 1]), (2, [0, 0, 0, 0])] ∧
    printPoly [['x'], ['y']] 2 [(3, [12, 12, 1, 1]), (2, [0, 0, 0, 0])] = "3*x^12*y^1+2".toList :=
  ⟨.cons ⟨rfl, .inl ⟨rfl, 13, rfl⟩⟩ (.cons ⟨rfl, .inl ⟨rfl, 0, rfl⟩⟩ .nil),
    .cons ⟨rfl, .inr ⟨by decide, [12], [1], 12, 1, rfl, rfl, rfl⟩⟩ (.cons ⟨rfl, .inr ⟨by decide, [0], [0], 0, 0, rfl, rfl, rfl⟩⟩ .nil),
    by decide +kernel⟩

/-- The variables and terms of the examples: `-3*x^12*y+y-5`. -/
def exNames : List (List Char) := ["x".toList, "y1".toList]
def exTerms : List Mon :=
  [⟨true, some ⟨['3'], none⟩, [⟨0, some ['1', '2']⟩, ⟨1, none⟩]⟩, ⟨false, none, [⟨1, none⟩]⟩, ⟨true, some ⟨['5'], none⟩, []⟩]

theorem exNames_ok : (∀ nm ∈ exNames, Name nm) ∧ exNames.Nodup := by
  have h : ∀ nm ∈ exNames, nm ≠ [] ∧ (∀ c ∈ nm.head?, c.isDigit = false) ∧ ∀ c ∈ nm, c ∉ ['*', '^', '+', '-', ','] ∧ isSpace c = false := by
    decide
  refine ⟨fun nm hm => ⟨(h nm hm).1, fun c l hcl => (h nm hm).2.1 c (by rw [hcl]; rfl), (h nm hm).2.2⟩, by decide⟩

theorem exTerms_ok : ∀ u ∈ exTerms, u.Ok exNames := by
  intro u hu
  simp only [exTerms, List.mem_cons, List.not_mem_nil, or_false] at hu
  rcases hu with rfl | rfl | rfl
  · refine ⟨.inl (by decide), ?_, by decide, ?_, by decide⟩
    · intro a ha; simp only [Option.some.injEq] at ha; subst ha; exact ⟨⟨by decide, by decide⟩, by simp⟩
    · intro f hf ds hds
      simp only [List.mem_cons, List.not_mem_nil, or_false] at hf
      rcases hf with rfl | rfl
      · simp only [Option.some.injEq] at hds; subst hds; exact ⟨⟨by decide, by decide⟩, by decide⟩
      · simp at hds
  · refine ⟨.inr (by decide), by simp, by decide, ?_, by decide⟩
    intro f hf ds hds
    simp only [List.mem_cons, List.not_mem_nil, or_false] at hf
    subst hf; simp at hds
  · refine ⟨.inl (by decide), ?_, by simp, by simp, by decide⟩
    intro a ha; simp only [Option.some.injEq] at ha; subst ha; exact ⟨⟨by decide, by decide⟩, by simp⟩

example : line exNames exTerms = "-3*x^12*y1+y1-5".toList := by decide
example : ∀ u ∈ exTerms, u.Ok exNames := exTerms_ok
example : ∀ u ∈ exTerms, Fits exNames u := by unfold Fits; decide
example : ∀ t ∈ exTerms.head?, FirstNum t := by
  intro t ht a ha
  simp only [exTerms, List.head?_cons, Option.mem_def, Option.some.injEq] at ht
  subst ht
  simp only [Option.some.injEq] at ha
  subst ha; decide
example : ∀ u ∈ exTerms.tail, InnerNum u := by
  intro u hu a ha
  simp only [exTerms, List.tail_cons, List.mem_cons, List.not_mem_nil, or_false] at hu
  rcases hu with rfl | rfl
  · simp at ha
  · simp only [Option.some.injEq] at ha; subst ha; decide
example : parseFf exNames 101 ("-3*x^12*y1+y1-5".toList ++ [',']) = some [(98, [12, 1]), (1, [0, 1]), (96, [0, 0])] := by decide +kernel
example : parseQq exNames "-3/4*x^12*y1+y1-5".toList = some [((-3, 4), [12, 1]), ((1, 1), [0, 1]), ((-5, 1), [0, 0])] := by decide +kernel
example : printPoly exNames 0 [(98, [13, 12, 1]), (1, [1, 0, 1]), (96, [0, 0, 0])] = "98*x^12*y1^1+1*y1^1+96".toList := by decide +kernel

/-! ### C58 -/

/-- C58: a file with one polynomial per line and commas at the ends of the lines is read as written, over a prime field. -/
theorem C58_file {f : File} {names : List (List Char)} {p : ℕ} {tss : List (List Mon)} (h : FileOk f names p tss) (hp : 0 < p)
    (hnum : ∀ ts ∈ tss, (∀ t ∈ ts.head?, FirstNum t) ∧ ∀ t ∈ ts.tail, InnerNum t) :
    ∃ ps, readFile f.text = some ⟨names, p, .ff ps⟩ ∧ List.Forall₂ (List.Forall₂ (Reads p names.length)) ps tss := by
  obtain ⟨qs, h1, h2⟩ := readFile_prefix h
  refine ⟨tss.map (ffPoly names.length p), ?_, ?_⟩
  · rw [h2, if_neg (by omega), mapM_forall₂ (G := ffPoly names.length p)]
    · rfl
    · rw [List.forall₂_iff_get] at h1 ⊢
      refine ⟨h1.1, fun i hi hi2 => ?_⟩
      obtain ⟨tl, htl, hc⟩ := h1.2 i hi hi2
      have hmem := List.get_mem tss ⟨i, hi2⟩
      rw [hc]
      generalize tss.get ⟨i, hi2⟩ = ts at hmem
      have hne := h.terms ts hmem
      obtain ⟨t, ts, rfl⟩ := List.exists_cons_of_ne_nil hne
      exact parseFf_line h.name h.nodup hp h.small (h.ok _ hmem) (h.fits _ hmem) ((hnum _ hmem).1 t rfl) (hnum _ hmem).2 htl
  · rw [List.forall₂_map_left_iff, List.forall₂_same]
    exact fun ts _ => reads_ffPoly hp ts

/-- C58: the same with characteristic zero. -/
theorem C58_file_rational {f : File} {names : List (List Char)} {tss : List (List Mon)} (h : FileOk f names 0 tss) :
    ∃ ps, readFile f.text = some ⟨names, 0, .qq ps⟩ ∧ List.Forall₂ (List.Forall₂ (ReadsQ names.length)) ps tss := by
  obtain ⟨qs, h1, h2⟩ := readFile_prefix h
  refine ⟨tss.map (qqPoly names.length), ?_, ?_⟩
  · rw [h2, if_pos (by simp), mapM_forall₂ (G := qqPoly names.length)]
    · rfl
    · rw [List.forall₂_iff_get] at h1 ⊢
      refine ⟨h1.1, fun i hi hi2 => ?_⟩
      obtain ⟨tl, htl, hc⟩ := h1.2 i hi hi2
      have hmem := List.get_mem tss ⟨i, hi2⟩
      rw [hc]
      generalize tss.get ⟨i, hi2⟩ = ts at hmem
      have hne := h.terms ts hmem
      obtain ⟨t, ts, rfl⟩ := List.exists_cons_of_ne_nil hne
      exact parseQq_line h.name h.nodup (h.ok _ hmem) (h.fits _ hmem) htl
  · rw [List.forall₂_map_left_iff, List.forall₂_same]
    exact fun ts _ => reads_qqPoly ts

theorem printPolys_read {names : List (List Char)} (hnm : ∀ nm ∈ names, Name nm) (hnd : names.Nodup) (hne : names ≠ [])
    (hshort : ∀ nm ∈ names, nm.length ≤ 47) {p ebl : ℕ} (hp2 : p < 2 ^ 31) {fs : List (List (ℕ × List ℕ))} (hfs : fs ≠ [])
    (hf : ∀ f ∈ fs, f ≠ []) (hc : ∀ f ∈ fs, ∀ x ∈ f, 0 < x.1 ∧ x.1 < p)
    (hlen : ∀ f ∈ fs, ∀ x ∈ f, (exponentsOf ebl x.2).length = names.length) (hexp' : ∀ f ∈ fs, ∀ x ∈ f, ∀ k ∈ exponentsOf ebl x.2, k < 2 ^ 31)
    (hfit : ∀ f ∈ fs, ∀ x ∈ f, (printTerm names x.1 (exponentsOf ebl x.2)).length < 49997) :
    readFile (File.text ⟨names, Nat.toDigits 10 p, fs.map (printPoly names ebl), ['\n']⟩) =
      some ⟨names, p, .ff (fs.map fun f => f.map fun x => ((x.1 : ℤ), (exponentsOf ebl x.2).map (Nat.cast : ℕ → ℤ)))⟩ := by
  have hok : ∀ f ∈ fs, ∀ u ∈ printMons names ebl f, u.Ok names := by
    intro f hff u hu
    obtain ⟨y, hy, rfl⟩ := List.mem_map.mp hu
    exact printMon_ok (hexp' f hff y hy)
  have hp : 0 < p := by
    obtain ⟨f, fs, rfl⟩ := List.exists_cons_of_ne_nil hfs
    obtain ⟨x, r, rfl⟩ := List.exists_cons_of_ne_nil (hf f List.mem_cons_self)
    have := hc _ List.mem_cons_self x List.mem_cons_self
    omega
  have hfile : FileOk ⟨names, Nat.toDigits 10 p, fs.map (printPoly names ebl), ['\n']⟩ names p (fs.map (printMons names ebl)) :=
    { name := hnm
      nodup := hnd
      some := hne
      padded := by
        rw [List.forall₂_same]
        exact fun nm _ => ⟨[], [], by simp, by simp, by simp⟩
      short := hshort
      char := ⟨Nat.toDigits 10 p, [], by simp, (toDigits_digits p).1, (toDigits_digits p).2, by simp⟩
      small := hp2
      polys := by simpa using hfs
      spaced := by
        rw [List.forall₂_map_left_iff, List.forall₂_map_right_iff, List.forall₂_same]
        intro f hff
        rw [printPoly_line (hf f hff) (hlen f hff)]
        have hch := line_chars hnm (hok f hff)
        refine ⟨List.filter_eq_self.mpr fun c hc => ?_, fun h => ?_, fun h => (hch _ h).1 rfl⟩
        · have h1 := (hch c hc).2
          have h2 : c ≠ ' ' := by rintro rfl; revert h1; decide
          have h3 : c ≠ '\r' := by rintro rfl; revert h1; decide
          simp [h2, h3]
        · have h1 := (hch _ h).2
          revert h1; decide
      fin := by simp
      terms := by
        intro ts hts
        obtain ⟨f, hff, rfl⟩ := List.mem_map.mp hts
        simpa [printMons] using hf f hff
      ok := by
        intro ts hts
        obtain ⟨f, hff, rfl⟩ := List.mem_map.mp hts
        exact hok f hff
      fits := by
        intro ts hts u hu
        obtain ⟨f, hff, rfl⟩ := List.mem_map.mp hts
        obtain ⟨y, hy, rfl⟩ := List.mem_map.mp hu
        unfold Fits
        rw [← printTerm_body (hlen f hff y hy)]
        have := hfit f hff y hy
        omega }
  obtain ⟨qs, h1, h2⟩ := readFile_prefix hfile
  rw [h2, if_neg (by omega)]
  rw [mapM_forall₂ (G := fun f : List (ℕ × List ℕ) => f.map fun x => ((x.1 : ℤ), (exponentsOf ebl x.2).map (Nat.cast : ℕ → ℤ))) (ts := fs)]
  · rfl
  · rw [List.forall₂_map_right_iff] at h1
    rw [List.forall₂_iff_get] at h1 ⊢
    refine ⟨h1.1, fun i hi hi2 => ?_⟩
    obtain ⟨tl, htl, hcc⟩ := h1.2 i hi hi2
    have hmem := List.get_mem fs ⟨i, hi2⟩
    rw [hcc, ← printPoly_line (hf _ hmem) (hlen _ hmem)]
    exact printPoly_read hnm hnd hp2 (hf _ hmem) (hc _ hmem) (hlen _ hmem) (hexp' _ hmem) (hfit _ hmem) htl

/-- C58: a file with printed polynomials is read as these polynomials. -/
theorem C58_print {names : List (List Char)} (hnm : ∀ nm ∈ names, Name nm) (hnd : names.Nodup) (hne : names ≠ [])
    (hshort : ∀ nm ∈ names, nm.length ≤ 47) {p ebl : ℕ} (hp2 : p < 2 ^ 31) {fs gs : List (List (ℕ × List ℕ))}
    (hg : List.Forall₂ (StoredPoly ebl) fs gs) (hfs : fs ≠ [])
    (hf : ∀ f ∈ fs, f ≠ []) (hc : ∀ f ∈ fs, ∀ x ∈ f, 0 < x.1 ∧ x.1 < p)
    (hlen : ∀ f ∈ fs, ∀ x ∈ f, x.2.length = names.length) (hexp : ∀ f ∈ fs, ∀ x ∈ f, ∀ k ∈ x.2, k < 2 ^ 31)
    (hfit : ∀ f ∈ fs, ∀ x ∈ f, (printTerm names x.1 x.2).length < 49997) :
    readFile (File.text ⟨names, Nat.toDigits 10 p, gs.map (printPoly names ebl), ['\n']⟩) =
      some ⟨names, p, .ff (fs.map fun f => f.map fun x => ((x.1 : ℤ), x.2.map (Nat.cast : ℕ → ℤ)))⟩ := by
  have he : fs = gs.map fun g => g.map fun y => (y.1, exponentsOf ebl y.2) := by
    clear hfs hf hc hlen hexp hfit
    induction hg with
    | nil => rfl
    | cons h _ ih => rw [List.map_cons, ← ih, ← h.eq]
  subst he
  simp only [List.forall_mem_map] at hf hc hlen hexp hfit
  rw [printPolys_read hnm hnd hne hshort hp2 (by simpa using hfs) (fun g hg => by simpa using hf g hg) hc hlen hexp hfit]
  rw [List.map_map]
  congr 4
  funext g
  simp only [Function.comp_apply, List.map_map]
  rfl

/-- C58: a file in which the number of polynomials differs from the number of lines that are not empty is not read correctly:
`lens` is accessed outside of its bounds or before it is set. -/
theorem C58_lines (l1 l2 : List Char) (ls : List (List Char)) {content : List Char} (h : chop '\n' content = l1 :: l2 :: ls)
    (hne : (chop ',' ls.flatten).length ≠ (ls.filter fun l => !l.all isSpace).length) : readFile content = none := by
  unfold readFile
  rw [h]
  simp only
  cases variableNames l1 with
  | none => rfl
  | some names =>
    simp only [Option.bind_eq_bind, Option.bind_some]
    split
    · rfl
    · split
      · rfl
      · rw [if_pos (by rw [List.length_map]; exact hne)]

/-- C58: two polynomials on one line. -/
theorem C58_same_line : readFile "x,y\n7\nx,y\n".toList = none := by decide +kernel
/-- C58: a comma behind the last polynomial. -/
theorem C58_last_comma : readFile "x,y\n7\nx,\ny,\n".toList = none := by decide +kernel
/-- C58: a polynomial on two lines. -/
theorem C58_two_lines : readFile "x,y\n7\nx\n+y\n".toList = none := by decide +kernel
/-- C58: a tabulator is not removed: the factor behind it is ignored. -/
theorem C58_tab : readFile "x,y\n7\nx*\ty\n".toList = some ⟨[['x'], ['y']], 7, .ff [[(1, [1, 0])]]⟩ := by decide +kernel
/-- C58: a name that occurs twice, and a characteristic that is negative or has more than 31 bits, are rejected. -/
theorem C58_rejects (l1 l2 : List Char) (ls : List (List Char)) {content : List Char} (h : chop '\n' content = l1 :: l2 :: ls)
    (hbad : (∀ names, variableNames l1 = some names → ¬ names.Nodup) ∨ strtol l2 < 0 ∨ 2 ^ 31 ≤ strtol l2) : readFile content = none := by
  unfold readFile
  rw [h]
  simp only
  cases hv : variableNames l1 with
  | none => rfl
  | some names =>
    simp only [Option.bind_eq_bind, Option.bind_some]
    split
    · rfl
    · next hn =>
      rcases hbad with hb | hb
      · exact absurd (hb names hv) hn
      · rw [if_pos (by omega)]

/-- The file of the examples. -/
def exFile : File := ⟨["x".toList, " y1\r".toList], "101 ".toList, ["-3*x^12 * y1 + y1-5".toList, "-3*x^12*y1+y1-5".toList], "\n\n".toList⟩
example : exFile.text = "x, y1\r\n101 \n-3*x^12 * y1 + y1-5,\n-3*x^12*y1+y1-5\n\n".toList := by decide +kernel
example : FileOk exFile exNames 101 [exTerms, exTerms] where
  name := exNames_ok.1
  nodup := exNames_ok.2
  some := by decide
  padded := by
    refine .cons ⟨[], [], by decide, by simp, by simp⟩ (.cons ⟨[' '], ['\r'], by decide, by decide, by decide⟩ .nil)
  short := by decide
  char := ⟨['1', '0', '1'], [' '], by decide, ⟨by decide, by decide⟩, by decide, by decide⟩
  small := by decide
  polys := by decide
  spaced := by
    refine .cons ⟨by decide, by decide, by decide⟩ (.cons ⟨by decide, by decide, by decide⟩ .nil)
  fin := by decide
  terms := by decide
  ok := by
    intro ts hts
    simp only [List.mem_cons, List.not_mem_nil, or_false, or_self] at hts
    subst hts; exact exTerms_ok
  fits := by unfold Fits; decide
example : readFile exFile.text = some ⟨exNames, 101, .ff [[(98, [12, 1]), (1, [0, 1]), (96, [0, 0])], [(98, [12, 1]), (1, [0, 1]), (96, [0, 0])]]⟩ := by
  decide +kernel

end Verif.Props
