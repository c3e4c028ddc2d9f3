import Verif.Parse

/-!
Reading of input files and printing of polynomials over a prime field.
Source: src/msolve/iofiles.c 157-312, 362-474, 504-573, 808-1000.
-/
namespace Verif.Parse
open Verif.Spec.Text

/-! ### Input files -/

/-- The pieces returned by repeated calls of `getdelim(·, ·, d, ·)`: up to and including the next `d`. -/
def chop (d : Char) : List Char → List (List Char)
  | [] => []
  | c :: cs => if c = d then [c] :: chop d cs
      else match chop d cs with
        | [] => [[c]]
        | q :: qs => (c :: q) :: qs

/-- `is_line_empty`, iofiles.c 393-402. -/
def blank (l : List Char) : Bool := l.all isSpace

def trim (s : List Char) : List Char := ((s.dropWhile isSpace).reverse.dropWhile isSpace).reverse

/-- `get_variable_name` for all variables, iofiles.c 362-387, 428-472 and 504-522: the text between the commas without white
space at the ends.  The buffer has 50 bytes and the copy of the last name includes two terminating zeroes. -/
def variableNames (l : List Char) : Option (List (List Char)) :=
  let ps := l.splitOn ','
  if (∀ q ∈ ps.dropLast, q.length ≤ 49) ∧ (∀ q ∈ ps.getLast?, q.length ≤ 48) then some (ps.map trim) else none

/-- The filter of characters, iofiles.c 557-561, 823-827, 869-873.  The comma remains: the test behind the filter looks at the
end of the buffer, not of the string. -/
def clean (s : List Char) : List Char := s.filter fun c => c ≠ '\r' && c ≠ '\n' && c ≠ ' '

inductive Polys where
  | ff (ps : List (List (ℤ × List ℤ)))
  | qq (ps : List (List ((ℤ × ℤ) × List ℤ)))
  deriving DecidableEq

structure Data where
  names : List (List Char)
  char : ℤ
  polys : Polys
  deriving DecidableEq

/-- `get_data_from_file`, iofiles.c 922-1000 with 404-425, 525-551, 553-573 and 808-896.  The array `lens` has one entry per line
that is not empty: another number of pieces leads to accesses outside of it or to entries that are not set.  Lines longer than
2^30 characters and sizes beyond 32 bits are not modelled. -/
def readFile (content : List Char) : Option Data :=
  match chop '\n' content with
  | l1 :: l2 :: ls => do
    let names ← variableNames l1
    if ¬ names.Nodup then none
    else
      let ch := strtol l2
      if ch < 0 ∨ ch > 2147483647 then none
      else
        let ps := (chop ',' ls.flatten).map clean
        if ps.length ≠ (ls.filter fun l => !blank l).length then none
        else if ch = 0 then (ps.mapM (parseQq names)).map fun r => ⟨names, ch, .qq r⟩
        else (ps.mapM (parseFf names ch.toNat)).map fun r => ⟨names, ch, .ff r⟩
  | _ => none

/-! ### Printing -/

/-- The exponents of the variables in an exponent vector, which has degrees at 0 and at `ebl`, iofiles.c 208-219. -/
def exponentsOf (ebl : ℕ) (ev : List ℕ) : List ℕ := if ebl = 0 then ev.drop 1 else (ev.take ebl).drop 1 ++ ev.drop (ebl + 1)

/-- One term, iofiles.c 262-280 and 282-302. -/
def printTerm (names : List (List Char)) (c : ℕ) (e : List ℕ) : List Char :=
  Nat.toDigits 10 c ++ (names.zip e).flatMap fun x => if 0 < x.2 then '*' :: x.1 ++ '^' :: Nat.toDigits 10 x.2 else []

/-- One polynomial of `print_msolve_polynomials_ff`, iofiles.c 254-304; the elements are coefficients and exponent vectors, an
empty list is a basis element `NULL`. -/
def printPoly (names : List (List Char)) (ebl : ℕ) : List (ℕ × List ℕ) → List Char
  | [] => ['0']
  | (c, e) :: r => printTerm names c (exponentsOf ebl e) ++ r.flatMap fun x => '+' :: printTerm names x.1 (exponentsOf ebl x.2)

/-- The list of polynomials behind the comments, iofiles.c 250-310. -/
def printPolys (names : List (List Char)) (ebl : ℕ) (ps : List (List (ℕ × List ℕ))) : List Char :=
  '[' :: List.intercalate [',', '\n'] (ps.map (printPoly names ebl)) ++ [']', ':', '\n']

/-! ### Cutting -/

theorem chop_flatten (d : Char) (s : List Char) : (chop d s).flatten = s := by
  induction s with
  | nil => rfl
  | cons c s ih =>
    unfold chop
    split
    · rw [List.flatten_cons, ih]; rfl
    · cases h : chop d s with
      | nil => rw [h] at ih; simp at ih; simp [← ih]
      | cons q qs => rw [h] at ih; simp at ih; simp [ih]

theorem chop_append {d : Char} {s : List Char} (h : d ∉ s) (w : List Char) (hs : s ≠ []) :
    chop d (s ++ w) = match chop d w with | [] => [s] | q :: qs => (s ++ q) :: qs := by
  induction s with
  | nil => exact absurd rfl hs
  | cons c s ih =>
    simp only [List.mem_cons, not_or] at h
    rw [List.cons_append, chop, if_neg (Ne.symm h.1)]
    cases s with
    | nil => rw [List.nil_append]; cases chop d w <;> rfl
    | cons c' s =>
      rw [ih h.2 (by simp)]
      cases chop d w <;> rfl

theorem chop_delim {d : Char} {s : List Char} (h : d ∉ s) (w : List Char) : chop d (s ++ d :: w) = (s ++ [d]) :: chop d w := by
  cases s with
  | nil => rw [List.nil_append, chop, if_pos rfl]; rfl
  | cons c s => rw [chop_append h _ (by simp), chop, if_pos rfl]

theorem mem_chop {d : Char} {s q : List Char} (h : q ∈ chop d s) : ∀ c ∈ q, c ∈ s := by
  intro c hc
  rw [← chop_flatten d s]
  exact List.mem_flatten.mpr ⟨q, h, hc⟩

/-- The pieces of the polynomials. -/
theorem chop_comma {ps : List (List Char)} {p : List Char} (hp : ∀ q ∈ p :: ps, ',' ∉ q) {w fin : List Char} (hw : ',' ∉ w) (hfin : ',' ∉ fin)
    (hne : ps = [] → w ++ p ++ fin ≠ []) :
    ∃ qs, chop ',' (w ++ List.intercalate [',', '\n'] (p :: ps) ++ fin) = qs ∧
      (qs.map clean).length = ps.length + 1 ∧
      (∃ l, IsTail l ∧ (qs.map clean).head? = some (clean w ++ clean p ++ l ++ if ps = [] then clean fin else [])) ∧
      List.Forall₂ (fun c q => ∃ l, IsTail l ∧ (c = clean q ++ l ∨ c = clean q ++ l ++ clean fin)) (qs.map clean).tail ps := by
  induction ps generalizing p w with
  | nil =>
    have e : List.intercalate [',', '\n'] [p] = p := by simp [List.intercalate]
    have hp' := hp p List.mem_cons_self
    refine ⟨_, rfl, ?_⟩
    rw [e]
    have := chop_append (d := ',') (s := w ++ p ++ fin) (by simp [hw, hp', hfin]) [] (hne rfl)
    rw [List.append_nil] at this
    rw [this]
    simp only [chop]
    refine ⟨rfl, ⟨[], .inl rfl, ?_⟩, .nil⟩
    simp [clean]
  | cons p' ps ih =>
    have e : List.intercalate [',', '\n'] (p :: p' :: ps) = p ++ ',' :: '\n' :: List.intercalate [',', '\n'] (p' :: ps) := by
      simp [List.intercalate, List.intersperse]
    have hp' := hp p List.mem_cons_self
    obtain ⟨qs, h1, h2, ⟨l, h3, h4⟩, h5⟩ := ih (p := p') (w := ['\n']) (fun q hq => hp q (List.mem_cons_of_mem _ hq)) (by decide) (by simp)
    refine ⟨_, rfl, ?_⟩
    rw [e, show w ++ (p ++ ',' :: '\n' :: List.intercalate [',', '\n'] (p' :: ps)) ++ fin =
      (w ++ p) ++ ',' :: (['\n'] ++ List.intercalate [',', '\n'] (p' :: ps) ++ fin) by simp, chop_delim (by simp [hw, hp']), h1]
    refine ⟨by simpa using h2, ⟨[','], .inr rfl, ?_⟩, ?_⟩
    · simp [clean]
    · rw [List.map_cons, List.tail_cons]
      cases hq : qs.map clean with
      | nil => rw [hq] at h2; simp at h2
      | cons a b =>
        rw [hq] at h4 h5
        simp only [List.head?_cons, Option.some.injEq, List.tail_cons] at h4 h5
        refine .cons ⟨l, h3, ?_⟩ h5
        rw [h4]
        have : clean ['\n'] = [] := by decide
        rw [this]
        by_cases hps : ps = []
        · right; simp [hps]
        · left; simp [hps]

theorem blank_of {l : List Char} (h : ∀ c ∈ l, isSpace c = true) : blank l = true := List.all_eq_true.mpr h

theorem not_blank_of {l : List Char} {c : Char} (h : c ∈ l) (hc : isSpace c = false) : blank l = false := by
  unfold blank
  rw [List.all_eq_false]
  exact ⟨c, h, by rw [hc]; decide⟩

/-- The number of lines with polynomials. -/
theorem count_lines {ps : List (List Char)} {p : List Char} (hp : ∀ q ∈ p :: ps, '\n' ∉ q ∧ ∃ c ∈ q, isSpace c = false) {fin : List Char}
    (hfin : ∀ c ∈ fin, isSpace c = true) :
    ((chop '\n' (List.intercalate [',', '\n'] (p :: ps) ++ fin)).filter fun l => !blank l).length = ps.length + 1 := by
  induction ps generalizing p with
  | nil =>
    have e : List.intercalate [',', '\n'] [p] = p := by simp [List.intercalate]
    obtain ⟨h1, c, h2, h3⟩ := hp p List.mem_cons_self
    rw [e, chop_append h1 _ (List.ne_nil_of_mem h2)]
    cases hf : chop '\n' fin with
    | nil => simp [not_blank_of h2 h3]
    | cons q qs =>
      have hq : blank (p ++ q) = false := not_blank_of (List.mem_append_left _ h2) h3
      have hqs : qs.filter (fun l => !blank l) = [] := by
        rw [List.filter_eq_nil_iff]
        intro l hl
        rw [blank_of fun c hc => hfin c (mem_chop (by rw [hf]; exact List.mem_cons_of_mem _ hl) c hc)]
        decide
      rw [List.filter_cons_of_pos (by rw [hq]; rfl), hqs]
      rfl
  | cons p' ps ih =>
    have e : List.intercalate [',', '\n'] (p :: p' :: ps) = (p ++ [',']) ++ '\n' :: List.intercalate [',', '\n'] (p' :: ps) := by
      simp [List.intercalate, List.intersperse]
    obtain ⟨h1, c, h2, h3⟩ := hp p List.mem_cons_self
    rw [e, List.append_assoc, List.cons_append, chop_delim (by simp [h1]),
      List.filter_cons_of_pos (by rw [not_blank_of (List.mem_append_left _ (List.mem_append_left _ h2)) h3]; rfl),
      List.length_cons, ih fun q hq => hp q (List.mem_cons_of_mem _ hq)]
    rfl

/-! ### Names -/

theorem trim_padded {s nm : List Char} (h : Padded s nm) (hnm : Name nm) {w : List Char} (hw : ∀ c ∈ w, isSpace c = true) :
    trim (s ++ w) = nm := by
  obtain ⟨a, b, rfl, ha, hb⟩ := h
  have h1 : (a ++ nm ++ b ++ w).dropWhile isSpace = nm ++ (b ++ w) := by
    rw [List.append_assoc, List.append_assoc]
    refine dropWhile_stop (fun c hc => (ha c hc).1) fun x l hx => ?_
    obtain ⟨c, m, hcm⟩ := List.exists_cons_of_ne_nil hnm.1
    rw [hcm, List.cons_append, List.cons.injEq] at hx
    rw [← hx.1]
    exact (hnm.2.2 c (by rw [hcm]; exact List.mem_cons_self)).2
  unfold trim
  rw [h1, List.reverse_append, dropWhile_stop, List.reverse_reverse]
  · intro x hx
    rw [List.mem_reverse, List.mem_append] at hx
    exact hx.elim (fun h => (hb x h).1) (hw x)
  · intro x l hx
    refine (hnm.2.2 x ?_).2
    rw [← List.mem_reverse, hx]; exact List.mem_cons_self

theorem intercalate_snoc (c : Char) (init : List (List Char)) (l w : List Char) :
    List.intercalate [c] (init ++ [l]) ++ w = List.intercalate [c] (init ++ [l ++ w]) := by
  induction init with
  | nil => simp [List.intercalate]
  | cons a init ih =>
    cases init with
    | nil => simp [List.intercalate, List.intersperse]
    | cons b init =>
      rw [List.cons_append, List.cons_append, List.cons_append, List.cons_append, List.intercalate_cons_cons, List.intercalate_cons_cons]
      rw [List.cons_append] at ih
      rw [List.append_assoc, ih]; rfl

theorem padded_comma {s nm : List Char} (h : Padded s nm) (hnm : Name nm) : ',' ∉ s ∧ '\n' ∉ s := by
  obtain ⟨a, b, rfl, ha, hb⟩ := h
  have key : ∀ c ∈ a ++ nm ++ b, c ≠ ',' ∧ c ≠ '\n' := by
    intro c hc
    rw [List.mem_append, List.mem_append] at hc
    rcases hc with (hc | hc) | hc
    · exact ⟨by rintro rfl; have := (ha _ hc).1; revert this; decide, (ha c hc).2⟩
    · exact ⟨(name_chars hnm c hc).2.1, by rintro rfl; have := (hnm.2.2 _ hc).2; revert this; decide⟩
    · exact ⟨by rintro rfl; have := (hb _ hc).1; revert this; decide, (hb c hc).2⟩
  exact ⟨fun h => (key _ h).1 rfl, fun h => (key _ h).2 rfl⟩

theorem variableNames_padded {ns names : List (List Char)} (h : List.Forall₂ Padded ns names) (hnm : ∀ nm ∈ names, Name nm)
    (hne : names ≠ []) (hlen : ∀ s ∈ ns, s.length ≤ 47) : variableNames (List.intercalate [','] ns ++ ['\n']) = some names := by
  have hns : ns ≠ [] := by rintro rfl; cases h; exact hne rfl
  obtain ⟨init, l, rfl⟩ : ∃ init l, ns = init ++ [l] := ⟨ns.dropLast, ns.getLast hns, (List.dropLast_append_getLast hns).symm⟩
  have hcomma : ∀ s ∈ init ++ [l], ',' ∉ s := by
    intro s hs
    obtain ⟨i, hi, rfl⟩ := List.mem_iff_getElem.mp hs
    rw [List.forall₂_iff_get] at h
    exact (padded_comma (h.2 i hi (by rw [← h.1]; exact hi)) (hnm _ (List.get_mem _ _))).1
  have hsplit : (List.intercalate [','] (init ++ [l]) ++ ['\n']).splitOn ',' = init ++ [l ++ ['\n']] := by
    rw [intercalate_snoc]
    apply List.splitOn_intercalate
    · intro s hs
      rw [List.mem_append, List.mem_singleton] at hs
      rcases hs with hs | rfl
      · exact hcomma s (List.mem_append_left _ hs)
      · have := hcomma l (by simp)
        simp [this]
    · simp
  unfold variableNames
  simp only [hsplit]
  rw [if_pos]
  · congr 1
    rw [List.map_append]
    rw [← List.forall₂_eq_eq_eq, List.forall₂_iff_get]
    have h' := List.forall₂_iff_get.mp h
    have hlen2 : (init ++ [l]).length = names.length := h'.1
    refine ⟨by simpa using hlen2, fun i hi hi2 => ?_⟩
    have hi3 : i < (init ++ [l]).length := by rw [hlen2]; exact hi2
    have hpad := h'.2 i hi3 hi2
    have hn := hnm (names.get ⟨i, hi2⟩) (List.get_mem _ _)
    simp only [List.get_eq_getElem] at hpad hn ⊢
    rcases Nat.lt_or_ge i init.length with h1 | h1
    · rw [List.getElem_append_left (by simpa using h1), List.getElem_map]
      rw [List.getElem_append_left h1] at hpad
      have := trim_padded hpad hn (w := []) (by simp)
      rwa [List.append_nil] at this
    · have h2 : i = init.length := by simp at hi3; omega
      subst h2
      simp only [List.map_cons, List.map_nil]
      simp only [le_refl, List.getElem_append_right, Nat.sub_self, List.getElem_cons_zero] at hpad
      rw [List.getElem_append_right (by simp)]
      simp only [List.length_map, Nat.sub_self, List.getElem_cons_zero]
      exact trim_padded hpad hn (by decide)
  · refine ⟨fun q hq => ?_, fun q hq => ?_⟩
    · rw [List.dropLast_concat] at hq
      have := hlen q (List.mem_append_left _ hq)
      omega
    · simp only [List.getLast?_append, List.getLast?_singleton, Option.some_or, Option.mem_def, Option.some.injEq] at hq
      have := hlen l (by simp)
      rw [← hq, List.length_append]
      simp; omega

/-! ### Whole files -/

/-- What is stored for a line over a prime field. -/
def ffPoly (n p : ℕ) : List Mon → List (ℤ × List ℤ)
  | [] => []
  | t :: ts => (addUntil t.numer p, expoRow n t) :: ts.map fun u => (u.numer % p, expoRow n u)

def qqPoly (n : ℕ) (ts : List Mon) : List ((ℤ × ℤ) × List ℤ) := ts.map fun t => ((t.numer, t.denom), expoRow n t)

theorem parseFf_line {names : List (List Char)} (hnm : ∀ nm ∈ names, Name nm) (hnd : names.Nodup) {p : ℕ} (hp : 0 < p) (hp2 : p < 2 ^ 31)
    {t : Mon} {ts : List Mon} (ht : ∀ u ∈ t :: ts, u.Ok names) (hfit : ∀ u ∈ t :: ts, Fits names u) (h0 : FirstNum t)
    (h1 : ∀ u ∈ ts, InnerNum u) {tl : List Char} (htl : IsTail tl) :
    parseFf names p (line names (t :: ts) ++ tl) = some (ffPoly names.length p (t :: ts)) := by
  unfold parseFf
  rw [parseTerms_line hnm hnd ht hfit (F := fun t => addUntil t.numer p) (G := fun t => t.numer % p) ?_ ?_ htl]
  · rfl
  · exact fun tl htl => firstCoef_term hnm (ht t List.mem_cons_self) htl h0 p
  · exact fun u hu tl htl => innerCoef_term hnm (ht u (List.mem_cons_of_mem _ hu)) htl (h1 u hu) hp hp2

theorem parseQq_line {names : List (List Char)} (hnm : ∀ nm ∈ names, Name nm) (hnd : names.Nodup)
    {t : Mon} {ts : List Mon} (ht : ∀ u ∈ t :: ts, u.Ok names) (hfit : ∀ u ∈ t :: ts, Fits names u)
    {tl : List Char} (htl : IsTail tl) :
    parseQq names (line names (t :: ts) ++ tl) = some (qqPoly names.length (t :: ts)) := by
  unfold parseQq
  rw [parseTerms_line hnm hnd ht hfit (F := fun t => (t.numer, t.denom)) (G := fun t => (t.numer, t.denom)) ?_ ?_ htl]
  · rfl
  · exact fun tl htl => firstRat_term hnm (ht t List.mem_cons_self) htl
  · exact fun u hu tl htl => innerRat_term hnm (ht u (List.mem_cons_of_mem _ hu)) htl

theorem reads_ffPoly {n p : ℕ} (hp : 0 < p) (ts : List Mon) : List.Forall₂ (Reads p n) (ffPoly n p ts) ts := by
  have hrow : ∀ t : Mon, (expoRow n t).length = n ∧ ∀ k, k < n → (expoRow n t)[k]? = some (t.expo k : ℤ) := fun t =>
    ⟨by simp [expoRow], fun k hk => by simp [expoRow, hk]⟩
  cases ts with
  | nil => exact .nil
  | cons t ts =>
    refine .cons ⟨?_, ?_, hrow t⟩ ?_
    · simp only
      unfold addUntil
      split
      · exact Int.emod_nonneg _ (by omega)
      · omega
    · exact Int.emod_eq_zero_of_dvd (Int.ModEq.dvd (addUntil_mod t.numer p).symm)
    · rw [List.forall₂_map_left_iff, List.forall₂_same]
      exact fun u _ => ⟨Int.emod_nonneg _ (by omega), Int.emod_eq_zero_of_dvd (Int.ModEq.dvd (Int.emod_emod_of_dvd _ dvd_rfl).symm), hrow u⟩

theorem reads_qqPoly {n : ℕ} (ts : List Mon) : List.Forall₂ (ReadsQ n) (qqPoly n ts) ts := by
  unfold qqPoly
  rw [List.forall₂_map_left_iff, List.forall₂_same]
  exact fun u _ => ⟨rfl, by simp [expoRow], fun k hk => by simp [expoRow, hk]⟩

theorem mapM_forall₂ {α β γ : Type} {g : α → Option β} {G : γ → β} {cs : List α} {ts : List γ}
    (h : List.Forall₂ (fun c t => g c = some (G t)) cs ts) : cs.mapM g = some (ts.map G) := by
  induction h with
  | nil => rfl
  | cons h _ ih => rw [List.mapM_cons, h, ih]; rfl

theorem clean_spaced {s l : List Char} (h : Spaced s l) : clean s = l := by
  unfold clean
  rw [← h.1]
  apply List.filter_congr
  intro c hc
  have : c ≠ '\n' := by rintro rfl; exact h.2.1 hc
  simp [this, Bool.and_comm]

theorem line_nonblank {names : List (List Char)} (hnm : ∀ nm ∈ names, Name nm) {ts : List Mon} (hne : ts ≠ []) (ht : ∀ t ∈ ts, t.Ok names) :
    ∃ c ∈ line names ts, isSpace c = false := by
  obtain ⟨t, ts, rfl⟩ := List.exists_cons_of_ne_nil hne
  have ht0 := ht t List.mem_cons_self
  obtain ⟨d, m, hb⟩ := List.exists_cons_of_ne_nil (body_ne_nil hnm ht0)
  have hd : d ∈ t.body names := by rw [hb]; exact List.mem_cons_self
  exact ⟨d, by simp only [line, List.mem_append]; exact .inl (.inr hd), (body_chars hnm ht0 d hd).2.2.2⟩

theorem line_chars {names : List (List Char)} (hnm : ∀ nm ∈ names, Name nm) {ts : List Mon} (ht : ∀ t ∈ ts, t.Ok names) :
    ∀ c ∈ line names ts, c ≠ ',' ∧ isSpace c = false := by
  intro c hc
  cases ts with
  | nil => simp [line] at hc
  | cons t ts =>
    simp only [line, List.mem_append, List.mem_flatMap, List.mem_cons] at hc
    rcases hc with (hc | hc) | ⟨u, hu, hc | hc⟩
    · split at hc
      · simp only [List.mem_singleton] at hc; subst hc; decide
      · simp at hc
    · have := body_chars hnm (ht t List.mem_cons_self) c hc
      exact ⟨this.1, this.2.2.2⟩
    · subst hc; split <;> decide
    · have := body_chars hnm (ht u (List.mem_cons_of_mem _ hu)) c hc
      exact ⟨this.1, this.2.2.2⟩

/-- The steps of `readFile` before the polynomials are read. -/
theorem readFile_prefix {f : File} {names : List (List Char)} {p : ℕ} {tss : List (List Mon)} (h : FileOk f names p tss) :
    ∃ ps, (List.Forall₂ (fun c ts => ∃ tl, IsTail tl ∧ c = line names ts ++ tl) ps tss) ∧
      readFile f.text = if (p : ℤ) = 0 then (ps.mapM (parseQq names)).map fun r => ⟨names, p, .qq r⟩
        else (ps.mapM (parseFf names p)).map fun r => ⟨names, p, .ff r⟩ := by
  have hnl : '\n' ∉ List.intercalate [','] f.names := by
    intro hh
    have hpad := List.forall₂_iff_get.mp h.padded
    have key : ∀ (ns : List (List Char)), (∀ s ∈ ns, '\n' ∉ s) → '\n' ∉ List.intercalate [','] ns := by
      intro ns
      induction ns with
      | nil => simp [List.intercalate]
      | cons a ns ih =>
        intro hns
        cases ns with
        | nil => simpa [List.intercalate] using hns a List.mem_cons_self
        | cons b ns =>
          rw [List.intercalate_cons_cons, List.mem_append, List.mem_append]
          rintro ((h1 | h1) | h1)
          · exact hns a List.mem_cons_self h1
          · revert h1; decide
          · exact ih (fun s hs => hns s (List.mem_cons_of_mem _ hs)) h1
    refine key f.names (fun s hs => ?_) hh
    obtain ⟨i, hi, rfl⟩ := List.mem_iff_getElem.mp hs
    exact (padded_comma (hpad.2 i hi (by rw [← hpad.1]; exact hi)) (h.name _ (List.get_mem _ _))).2
  obtain ⟨ds, b, hchar, hds, hdec, hb⟩ := h.char
  have hcl : '\n' ∉ f.char := by
    rw [hchar, List.mem_append]
    rintro (h1 | h1)
    · have := hds.2 _ h1; revert this; decide
    · exact (hb _ h1).2 rfl
  have hsp := h.spaced
  obtain ⟨s, ss, hss⟩ : ∃ s ss, f.polys = s :: ss := by
    cases hq : f.polys with
    | nil => rw [hq] at hsp; cases hsp; exact absurd rfl h.polys
    | cons s ss => exact ⟨s, ss, rfl⟩
  obtain ⟨ts0, tss0, htss⟩ := List.exists_cons_of_ne_nil h.polys
  rw [hss, htss] at hsp
  cases hsp with
  | cons hsp0 hsps =>
  have hfinc : clean f.fin = [] := by
    unfold clean
    rw [List.filter_eq_nil_iff]
    intro c hc
    rcases h.fin c hc with rfl | rfl | rfl <;> decide
  have hfinsp : ∀ c ∈ f.fin, isSpace c = true := by
    intro c hc
    rcases h.fin c hc with rfl | rfl | rfl <;> decide
  have hfincomma : ',' ∉ f.fin := by
    intro hc
    rcases h.fin _ hc with h1 | h1 | h1 <;> revert h1 <;> decide
  have hspall : ∀ q ∈ s :: ss, ∃ ts ∈ tss, Spaced q (line names ts) := by
    intro q hq
    have hg := List.forall₂_iff_get.mp h.spaced
    rw [← hss] at hq
    obtain ⟨i, hi, rfl⟩ := List.mem_iff_getElem.mp hq
    exact ⟨_, List.get_mem _ _, hg.2 i hi (by rw [← hg.1]; exact hi)⟩
  have hnonblank : ∀ q ∈ s :: ss, '\n' ∉ q ∧ ∃ c ∈ q, isSpace c = false := by
    intro q hq
    obtain ⟨ts, hts, hsq⟩ := hspall q hq
    obtain ⟨c, hc, hcs⟩ := line_nonblank h.name (h.terms ts hts) (h.ok ts hts)
    refine ⟨hsq.2.1, c, ?_, hcs⟩
    rw [← hsq.1] at hc
    exact List.mem_of_mem_filter hc
  obtain ⟨qs, hq1, hq2, ⟨l, hl, hq3⟩, hq4⟩ := chop_comma (p := s) (ps := ss) (w := []) (fin := f.fin)
    (fun q hq => by obtain ⟨_, _, hsq⟩ := hspall q hq; exact hsq.2.2) (by simp) hfincomma (fun _ => by
      obtain ⟨_, c, hc, _⟩ := hnonblank s List.mem_cons_self
      simp [List.ne_nil_of_mem hc])
  rw [List.nil_append] at hq1
  refine ⟨qs.map clean, ?_, ?_⟩
  · rw [htss]
    cases hqs : qs.map clean with
    | nil => rw [hqs] at hq2; simp at hq2
    | cons a as =>
      rw [hqs] at hq3 hq4
      simp only [List.head?_cons, Option.some.injEq, List.tail_cons] at hq3 hq4
      refine .cons ⟨l, hl, ?_⟩ ?_
      · rw [hq3, hfinc, clean_spaced hsp0]
        have : clean ([] : List Char) = [] := rfl
        rw [this]
        simp
      · clear hq1 hq2 hspall hnonblank hss htss hqs hq3
        induction hsps generalizing as with
        | nil => cases hq4; exact .nil
        | cons h1 h2 ih =>
          cases hq4 with
          | cons h3 h4 =>
            refine .cons ?_ (ih _ h4)
            obtain ⟨l, hl, hc | hc⟩ := h3
            · exact ⟨l, hl, by rw [hc, clean_spaced h1]⟩
            · exact ⟨l, hl, by rw [hc, clean_spaced h1, hfinc, List.append_nil]⟩
  · have htext : chop '\n' f.text = (List.intercalate [','] f.names ++ ['\n']) :: (f.char ++ ['\n']) ::
        chop '\n' (List.intercalate [',', '\n'] f.polys ++ f.fin) := by
      unfold File.text
      rw [chop_delim hnl, chop_delim hcl]
    have hnames := variableNames_padded h.padded h.name h.some h.short
    have hstr : strtol (f.char ++ ['\n']) = p := by
      rw [hchar, List.append_assoc, strtol_digits hds, hdec]
      · have := h.small; omega
      · intro x l hx
        have hx2 : isSpace x = true := by
          have : x ∈ b ++ ['\n'] := by rw [hx]; exact List.mem_cons_self
          rw [List.mem_append, List.mem_singleton] at this
          rcases this with h1 | rfl
          · exact (hb x h1).1
          · decide
        by_contra hd
        rw [Bool.not_eq_false] at hd
        rw [digit_not_space hd] at hx2
        exact absurd hx2 (by decide)
    unfold readFile
    rw [htext]
    simp only [hnames, hstr, Option.bind_eq_bind, Option.bind_some]
    rw [if_neg (not_not.mpr h.nodup), if_neg (by have := h.small; omega), chop_flatten, hss, hq1, count_lines hnonblank hfinsp,
      if_neg (by rw [hq2]; exact not_not.mpr rfl)]
    simp

/-! ### Printed polynomials -/

/-- The term that is printed. -/
def printMon (names : List (List Char)) (c : ℕ) (e : List ℕ) : Mon where
  num := some ⟨Nat.toDigits 10 c, none⟩
  fs := (List.range names.length).filterMap fun k => if 0 < e.getD k 0 then some ⟨k, some (Nat.toDigits 10 (e.getD k 0))⟩ else none

theorem toDigits_digits (n : ℕ) : Digits (Nat.toDigits 10 n) ∧ dec (Nat.toDigits 10 n) = n :=
  ⟨⟨Nat.toDigits_ne_nil, fun c hc => Nat.isDigit_of_mem_toDigits (by norm_num) (by norm_num) hc⟩, Nat.ofDigitChars_ten_toDigits⟩

theorem intercalate_star (p : List Char) (ps : List (List Char)) :
    List.intercalate ['*'] (p :: ps) = p ++ ps.flatMap fun q => '*' :: q := by
  induction ps generalizing p with
  | nil => simp [List.intercalate]
  | cons q ps ih => rw [List.intercalate_cons_cons, ih q]; simp

theorem printTerm_body {names : List (List Char)} {c : ℕ} {e : List ℕ} (he : e.length = names.length) :
    printTerm names c e = (printMon names c e).body names := by
  have hz : names.zip e = (List.range names.length).map fun k => (names.getD k [], e.getD k 0) := by
    apply List.ext_getElem
    · simp [he]
    · intro i h1 h2
      have h3 : i < names.length := by simpa using h2
      simp [List.getD_eq_getElem?_getD, List.getElem?_eq_getElem h3, List.getElem?_eq_getElem (show i < e.length by omega)]
  have hp : (printMon names c e).pieces names = Nat.toDigits 10 c :: (printMon names c e).fs.map (Fac.text names) := by
    unfold Mon.pieces printMon
    simp [Num.text]
  unfold Mon.body printTerm
  rw [hp, intercalate_star, hz]
  congr 1
  unfold printMon
  simp only
  generalize List.range names.length = L
  induction L with
  | nil => rfl
  | cons k L ih =>
    rw [List.map_cons, List.flatMap_cons, ih, List.filterMap_cons]
    by_cases h : 0 < e.getD k 0
    · rw [if_pos h, if_pos h]
      simp [Fac.text]
    · rw [if_neg h, if_neg h]
      simp

theorem printMon_vs (names : List (List Char)) (c : ℕ) (e : List ℕ) :
    (printMon names c e).fs.map (·.v) = (List.range names.length).filter fun k => 0 < e.getD k 0 := by
  unfold printMon
  simp only
  generalize List.range names.length = L
  induction L with
  | nil => rfl
  | cons k L ih =>
    rw [List.filterMap_cons]
    by_cases h : 0 < e.getD k 0
    · rw [if_pos h, List.filter_cons_of_pos (by simpa using h)]
      simpa using ih
    · rw [if_neg h, List.filter_cons_of_neg (by simpa using h)]
      exact ih

theorem printMon_ok {names : List (List Char)} {c : ℕ} {e : List ℕ} (hlt : ∀ x ∈ e, x < 2 ^ 31) : (printMon names c e).Ok names where
  some := .inl (by simp [printMon])
  num := by
    intro a ha
    simp only [printMon, Option.some.injEq] at ha
    subst ha
    exact ⟨(toDigits_digits c).1, by simp⟩
  vars := by
    intro f hf
    have : f.v ∈ (printMon names c e).fs.map (·.v) := List.mem_map_of_mem hf
    rw [printMon_vs] at this
    exact List.mem_range.mp (List.mem_of_mem_filter this)
  exps := by
    intro f hf ds hds
    simp only [printMon, List.mem_filterMap, List.mem_range] at hf
    obtain ⟨k, hk, hf⟩ := hf
    split at hf
    · next hpos =>
      simp only [Option.some.injEq] at hf
      rw [← hf] at hds
      simp only [Option.some.injEq] at hds
      rw [← hds]
      refine ⟨(toDigits_digits _).1, ?_⟩
      rw [(toDigits_digits _).2]
      rw [List.getD_eq_getElem?_getD] at hpos ⊢
      cases hx : e[k]? with
      | none => norm_num
      | some x => exact hlt x (List.mem_of_getElem? hx)
    · simp at hf
  nodup := by rw [printMon_vs]; exact List.nodup_range.filter _

theorem printMon_expo {names : List (List Char)} {c : ℕ} {e : List ℕ} {k : ℕ} (hk : k < names.length) :
    (printMon names c e).expo k = e.getD k 0 := by
  have key : ∀ L : List ℕ, L.Nodup → ((((L.filterMap fun k => if 0 < e.getD k 0 then some (⟨k, some (Nat.toDigits 10 (e.getD k 0))⟩ : Fac) else none).filter
      fun f => f.v = k).map fun f => match f.e with | none => 1 | some ds => dec ds).sum = if k ∈ L then e.getD k 0 else 0) := by
    intro L hL
    induction L with
    | nil => rfl
    | cons j L ih =>
      rw [List.nodup_cons] at hL
      rw [List.filterMap_cons]
      by_cases hjk : j = k
      · subst hjk
        have hi := ih hL.2
        rw [if_neg hL.1] at hi
        by_cases h : 0 < e.getD j 0
        · rw [if_pos h]
          simp only [List.filter_cons_of_pos, decide_true, List.map_cons, List.sum_cons, List.mem_cons, true_or, if_true]
          rw [hi, (toDigits_digits _).2]
          rfl
        · rw [if_neg h]
          simp only
          rw [hi]
          simp only [List.mem_cons, true_or, if_true]
          omega
      · have hmem : (k ∈ j :: L) ↔ k ∈ L := by simp [Ne.symm hjk]
        by_cases h : 0 < e.getD j 0
        · rw [if_pos h]
          simp only
          rw [List.filter_cons_of_neg (by simpa using hjk), ih hL.2]
          simp only [hmem]
        · rw [if_neg h]
          simp only
          rw [ih hL.2]
          simp only [hmem]
  have := key (List.range names.length) List.nodup_range
  rw [if_pos (List.mem_range.mpr hk)] at this
  exact this

theorem expoRow_print {names : List (List Char)} {c : ℕ} {e : List ℕ} (he : e.length = names.length) :
    expoRow names.length (printMon names c e) = e.map (Nat.cast : ℕ → ℤ) := by
  apply List.ext_getElem
  · simp [expoRow, he]
  · intro i h1 h2
    have h3 : i < names.length := by simpa [expoRow] using h1
    simp [expoRow, printMon_expo h3, List.getD_eq_getElem?_getD, List.getElem?_eq_getElem (show i < e.length by omega)]

theorem printMon_numer (names : List (List Char)) (c : ℕ) (e : List ℕ) : (printMon names c e).numer = c := by
  simp [Mon.numer, printMon, (toDigits_digits c).2]

/-- The terms of a printed polynomial. -/
def printMons (names : List (List Char)) (ebl : ℕ) (f : List (ℕ × List ℕ)) : List Mon :=
  f.map fun x => printMon names x.1 (exponentsOf ebl x.2)

theorem printPoly_line {names : List (List Char)} {ebl : ℕ} {f : List (ℕ × List ℕ)} (hne : f ≠ [])
    (hlen : ∀ x ∈ f, (exponentsOf ebl x.2).length = names.length) : printPoly names ebl f = line names (printMons names ebl f) := by
  obtain ⟨⟨c, e⟩, r, rfl⟩ := List.exists_cons_of_ne_nil hne
  unfold printMons
  simp only [printPoly, List.map_cons, line]
  rw [printTerm_body (hlen (c, e) List.mem_cons_self)]
  have hneg : (printMon names c (exponentsOf ebl e)).neg = false := rfl
  rw [if_neg (by rw [hneg]; decide), List.nil_append]
  congr 1
  have h' : ∀ x ∈ r, (exponentsOf ebl x.2).length = names.length := fun x hx => hlen x (List.mem_cons_of_mem _ hx)
  clear hlen hne
  induction r with
  | nil => rfl
  | cons x r ih =>
    rw [List.map_cons, List.flatMap_cons, List.flatMap_cons, ih fun y hy => h' y (List.mem_cons_of_mem _ hy),
      printTerm_body (h' x List.mem_cons_self)]
    rfl

end Verif.Parse
