import Verif.Spec.Text
import Mathlib.Tactic.Ring
import Mathlib.Tactic.Linarith
import Mathlib.Data.Int.ModEq
import Mathlib.Data.List.Infix
import Mathlib.Data.List.Forall2
import Mathlib.Data.List.Nodup
import Mathlib.Data.List.Intervals

/-!
Reading of polynomials and of input files, printing of polynomials over a prime field.
Source: src/msolve/iofiles.c 21-63, 157-312, 362-948.

Strings are lists of characters without the terminating zero; an index one past the end reads zero.  `none` stands for undefined
behaviour (access outside of an array, signed overflow excluded by assumption) and for `exit`.
-/
namespace Verif.Parse
open Verif.Spec.Text (isSpace)

/-! ### C library -/

/-- `strtol(s, NULL, 10)` with 64 bits. -/
def strtol (s : List Char) : ℤ :=
  let s := s.dropWhile isSpace
  let r := match s with
    | '-' :: t => (true, t)
    | '+' :: t => (false, t)
    | t => (false, t)
  let v : ℤ := (Nat.ofDigitChars 10 (r.2.takeWhile Char.isDigit) 0 : ℕ)
  if r.1 then max (-v) (-2 ^ 63) else min v (2 ^ 63 - 1)

/-- Conversion to `int32_t`. -/
def toInt32 (v : ℤ) : ℤ := (v + 2 ^ 31) % 2 ^ 32 - 2 ^ 31

/-- `strchr(line + pos, c)`: index in `line`. -/
def strchr (line : List Char) (pos : ℕ) (c : Char) : Option ℕ := ((line.drop pos).findIdx? (· = c)).map (pos + ·)

/-- `mpq_set_str(·, s, 10)` on a string without white space: numerator and denominator, `none` if the string is not valid. -/
def mpqSetStr (s : List Char) : Option (ℤ × ℤ) :=
  let r := match s with
    | '-' :: t => (true, t)
    | t => (false, t)
  let n := r.2.takeWhile Char.isDigit
  let rest := r.2.dropWhile Char.isDigit
  let sg : ℤ := if r.1 then -1 else 1
  if n = [] then none
  else match rest with
    | [] => some (sg * (Nat.ofDigitChars 10 n 0 : ℕ), 1)
    | '/' :: d => if d ≠ [] ∧ d.all Char.isDigit then some (sg * (Nat.ofDigitChars 10 n 0 : ℕ), (Nat.ofDigitChars 10 d 0 : ℕ)) else none
    | _ => none

/-! ### Terms -/

/-- One factor in `store_exponent`, iofiles.c 29-58: the piece of `term` from `op` to `i`.  With `j = 0` the code reads
`term[4294967295]`; with `op` behind `j` it copies 4294967295 bytes. -/
def storeFactor (names : List (List Char)) (term : List Char) (op i : ℕ) (exps : List ℤ) : Option (List ℤ) :=
  let j := op + ((term.take i).drop op).findIdx (· = '^')
  if j = 0 then none
  else
    let j := if term[j - 1]? = some ',' then j - 1 else j
    let op := op + ((term.drop op).takeWhile fun c => c = ' ' || c = '+' || c = '-').length
    if j < op then none
    else
      let var := (term.take j).drop op
      let ev := if term[j]? = some '^' then (term.take i).drop (j + 1) else ['1']
      match names.findIdx? (· = var) with
      | some k => some (exps.set k (toInt32 (strtol ev)))
      | none => some exps

/-- `store_exponent`, iofiles.c 21-63; `exps` is the row of the term, which the caller has set to zero. -/
def storeExponent (names : List (List Char)) (term : List Char) (exps : List ℤ) : Option (List ℤ) :=
  ((List.range (term.length + 1)).foldlM (fun (s : ℕ × List ℤ) i =>
    if term[i]? = some '*' ∨ i = term.length then (storeFactor names term s.1 i s.2).map fun e => (i + 1, e) else some s)
    (0, exps)).map (·.2)

/-- `get_number_of_terms`, iofiles.c 474-501. -/
def numTerms (line : List Char) : ℕ :=
  let n := 1 - (if (line.dropWhile (· = ' ')).head? = some '-' then 1 else 0)
  n + line.count '+' + line.count '-'

/-- The allocated length of a term, iofiles.c 662. -/
def termSize : ℕ := 50000

/-- Copy of `line[a .. b)` to the buffer of `termSize` bytes: longer strings end the program, with length `termSize` the
terminating zero is written behind the buffer. -/
def copyTerm (line : List Char) (a b : ℕ) : Option (List Char) := if b - a < termSize then some ((line.take b).drop a) else none

/-- `get_term`, iofiles.c 575-653: the term and the new position. -/
def getTerm (line : List Char) (pos : ℕ) : Option (List Char × ℕ) :=
  let add := strchr line pos '+'
  let minus := match strchr line pos '-' with
    | some 0 => strchr line (pos + 1) '-'
    | m => m
  let start := if pos ≠ 0 then pos - 1 else pos
  match add, minus with
  | some a, some m =>
    if a - start > m - start then (copyTerm line start m).map fun t => (t, m + 1) else (copyTerm line start a).map fun t => (t, a + 1)
  | some a, none => (copyTerm line start a).map fun t => (t, a + 1)
  | none, some m => (copyTerm line start m).map fun t => (t, m + 1)
  | none, none => if line.length + 1 - start < termSize then some (line.drop start, pos) else none

/-- `while (v < 0) v += p`. -/
def addUntil (v : ℤ) (p : ℕ) : ℤ := if v < 0 then v % p else v

/-- The first coefficient over a prime field, iofiles.c 670-687. -/
def firstCoef (term : List Char) (p : ℕ) : ℤ :=
  let iv := toInt32 (strtol term)
  let iv := if iv = 0 then (match term.head? with | some '0' => 0 | some '-' => -1 | _ => 1) else iv
  addUntil iv p

/-- The other coefficients over a prime field, iofiles.c 692-704. -/
def innerCoef (term : List Char) (p : ℕ) : ℤ :=
  let cf := strtol term
  let cf := if cf = 0 then (if term.head? = some '-' then -1 else 1) else cf
  toInt32 ((addUntil cf p).tmod p)

/-- `beginning_strterm_to_mpz`, iofiles.c 714-746: numerator and denominator. -/
def firstRat (term : List Char) : ℤ × ℤ :=
  let buf := term.takeWhile fun c => c ≠ '*' && c ≠ ','
  match mpqSetStr buf with
  | some r => r
  | none => if buf.head? = some '-' then (-1, 1) else (1, 1)

/-- `inner_strterm_to_mpz`, iofiles.c 748-777. -/
def innerRat (term : List Char) : ℤ × ℤ :=
  let buf := (term.takeWhile fun c => c ≠ '*' && c ≠ ',').drop 1
  let r := match mpqSetStr buf with
    | some r => r
    | none => (1, 1)
  if term.head? = some '-' then (-r.1, r.2) else r

/-- The loop over the terms, iofiles.c 657-712 and 779-806, with the functions for the coefficients as parameters. -/
def parseTerms {α : Type} (names : List (List Char)) (first inner : List Char → α) (line : List Char) (n : ℕ) :
    Option (List (α × List ℤ)) := do
  let zero := List.replicate names.length (0 : ℤ)
  let (t, pos) ← getTerm line 0
  let e ← storeExponent names t zero
  let r ← (List.range (n - 1)).foldlM (fun (s : List (α × List ℤ) × ℕ) _ => do
    let (t, pos) ← getTerm line s.2
    let e ← storeExponent names t zero
    pure (s.1 ++ [(inner t, e)], pos)) ([(first t, e)], pos)
  pure r.1

/-- One polynomial over a prime field. -/
def parseFf (names : List (List Char)) (p : ℕ) (line : List Char) : Option (List (ℤ × List ℤ)) :=
  parseTerms names (fun t => firstCoef t p) (fun t => innerCoef t p) line (numTerms line)

/-- One polynomial over the rationals. -/
def parseQq (names : List (List Char)) (line : List Char) : Option (List ((ℤ × ℤ) × List ℤ)) :=
  parseTerms names firstRat innerRat line (numTerms line)

/-! ### Positions of characters -/

theorem strchr_skip {line : List Char} {a b : ℕ} {c : Char} (hab : a ≤ b) (h : ∀ k, a ≤ k → k < b → line[k]? ≠ some c) :
    strchr line a c = strchr line b c := by
  obtain ⟨d, rfl⟩ := Nat.exists_eq_add_of_le hab
  induction d with
  | zero => rfl
  | succ d ih =>
    rw [ih (by omega) fun k h1 h2 => h k h1 (by omega)]
    have hk := h (a + d) (by omega) (by omega)
    unfold strchr
    rcases Nat.lt_or_ge (a + d) line.length with hl | hl
    · rw [List.drop_eq_getElem_cons hl, List.findIdx?_cons]
      rw [List.getElem?_eq_getElem hl] at hk
      have hne : ¬ (line[a + d] = c) := fun hh => hk (by rw [hh])
      rw [if_neg (by simpa using hne), Option.map_map]
      rw [show a + (d + 1) = a + d + 1 by ring]
      congr 1
      funext x
      simp only [Function.comp]
      omega
    · rw [List.drop_of_length_le hl, List.drop_of_length_le (by omega)]; rfl

theorem strchr_self {line : List Char} {a : ℕ} {c : Char} (h : line[a]? = some c) : strchr line a c = some a := by
  obtain ⟨hl, hc⟩ := List.getElem?_eq_some_iff.mp h
  unfold strchr
  rw [List.drop_eq_getElem_cons hl, List.findIdx?_cons, if_pos (by simpa using hc)]; rfl

theorem strchr_ge {line : List Char} {a m : ℕ} {c : Char} (h : strchr line a c = some m) : a ≤ m ∧ line[m]? = some c := by
  unfold strchr at h
  rw [Option.map_eq_some_iff] at h
  obtain ⟨x, hx, rfl⟩ := h
  refine ⟨by omega, ?_⟩
  rw [List.findIdx?_eq_some_iff_getElem] at hx
  obtain ⟨h1, h2, _⟩ := hx
  rw [List.getElem_drop] at h2
  rw [List.getElem?_eq_getElem (by rw [List.length_drop] at h1; omega)]
  simpa using h2

theorem strchr_none {line : List Char} {a : ℕ} {c : Char} (h : line.length ≤ a) : strchr line a c = none := by
  unfold strchr; rw [List.drop_of_length_le h]; rfl

/-! ### Splitting a line into terms -/

/-- `getTerm` in terms of the searches behind the first character of the term. -/
theorem getTerm_start {line : List Char} {start pos : ℕ} (hpos : pos = if start = 0 then 0 else start + 1)
    (hplus : start = 0 → line[0]? ≠ some '+') :
    getTerm line pos =
      match strchr line (start + 1) '+', strchr line (start + 1) '-' with
      | some a, some m => if a > m then (copyTerm line start m).map fun t => (t, m + 1)
          else (copyTerm line start a).map fun t => (t, a + 1)
      | some a, none => (copyTerm line start a).map fun t => (t, a + 1)
      | none, some m => (copyTerm line start m).map fun t => (t, m + 1)
      | none, none => if line.length + 1 - start < termSize then some (line.drop start, pos) else none := by
  have hst : (if pos ≠ 0 then pos - 1 else pos) = start := by
    rw [hpos]; split <;> simp_all
  have hadd : strchr line pos '+' = strchr line (start + 1) '+' := by
    rw [hpos]
    split
    · next h =>
      subst h
      refine strchr_skip (by omega) fun k h1 h2 => ?_
      have : k = 0 := by omega
      subst this; exact hplus rfl
    · rfl
  have hmin : (match strchr line pos '-' with | some 0 => strchr line (pos + 1) '-' | m => m) = strchr line (start + 1) '-' := by
    by_cases h : start = 0
    · subst h
      rw [hpos, if_pos rfl]
      by_cases h0 : line[0]? = some '-'
      · rw [strchr_self h0]; rfl
      · have : strchr line 0 '-' = strchr line 1 '-' := by
          refine strchr_skip (by omega) fun k h1 h2 => ?_
          have : k = 0 := by omega
          subst this; exact h0
        rw [this]
        cases hs : strchr line 1 '-' with
        | none => rfl
        | some m =>
          have := (strchr_ge hs).1
          cases m with
          | zero => omega
          | succ m => rfl
    · rw [hpos, if_neg h]
      cases hs : strchr line (start + 1) '-' with
      | none => rfl
      | some m =>
        have := (strchr_ge hs).1
        cases m with
        | zero => omega
        | succ m => rfl
  unfold getTerm
  simp only
  rw [hst, hadd]
  generalize hM : (match strchr line pos '-' with | some 0 => strchr line (pos + 1) '-' | m => m) = M
  rw [hmin] at hM
  rw [← hM]
  cases ha : strchr line (start + 1) '+' with
  | none => cases strchr line (start + 1) '-' <;> rfl
  | some a =>
    cases hm : strchr line (start + 1) '-' with
    | none => rfl
    | some m =>
      have h1 := (strchr_ge ha).1
      have h2 := (strchr_ge hm).1
      simp only
      by_cases h : a > m
      · rw [if_pos h, if_pos (by omega)]
      · rw [if_neg h, if_neg (by omega)]

/-- A character that starts a term. -/
def Sign (c : Char) : Prop := c = '+' ∨ c = '-'

/-- A chunk: a character, then no signs. -/
def Chunk (c : List Char) : Prop := ∃ d b, c = d :: b ∧ ∀ x ∈ b, ¬ Sign x

theorem chunk_skip {pre chunk rest : List Char} (hc : Chunk chunk) {c : Char} (hs : Sign c) :
    strchr (pre ++ chunk ++ rest) (pre.length + 1) c = strchr (pre ++ chunk ++ rest) (pre.length + chunk.length) c := by
  obtain ⟨d, b, rfl, hb⟩ := hc
  refine strchr_skip (by simp) fun k h1 h2 => ?_
  rw [List.append_assoc, List.getElem?_append_right (by omega), List.getElem?_append_left (by omega)]
  obtain ⟨j, hj⟩ : ∃ j, k - pre.length = j + 1 := ⟨k - pre.length - 1, by omega⟩
  rw [hj, List.getElem?_cons_succ]
  intro hh
  exact hb _ (List.mem_of_getElem? hh) hs

theorem getTerm_mid {pre chunk rest : List Char} {s : Char} (hc : Chunk chunk) (hs : Sign s)
    (hplus : pre = [] → chunk.head? ≠ some '+') (hsize : chunk.length < termSize) :
    getTerm (pre ++ chunk ++ s :: rest) (if pre.length = 0 then 0 else pre.length + 1) =
      some (chunk, pre.length + chunk.length + 1) := by
  have hne : chunk ≠ [] := by obtain ⟨d, b, rfl, _⟩ := hc; simp
  rw [getTerm_start rfl, chunk_skip hc (.inl rfl), chunk_skip hc (.inr rfl)]
  swap
  · intro h0
    have hp : pre = [] := List.length_eq_zero_iff.mp h0
    subst hp
    have := hplus rfl
    cases chunk with
    | nil => exact absurd rfl hne
    | cons d b => simpa using this
  have hget : (pre ++ chunk ++ s :: rest)[pre.length + chunk.length]? = some s := by
    rw [List.getElem?_append_right (by simp)]; simp
  have hcopy : copyTerm (pre ++ chunk ++ s :: rest) pre.length (pre.length + chunk.length) = some chunk := by
    unfold copyTerm
    rw [if_pos (by omega), List.take_left' (by simp), List.drop_left' rfl]
  rcases hs with rfl | rfl
  · rw [strchr_self hget]
    cases hm : strchr (pre ++ chunk ++ '+' :: rest) (pre.length + chunk.length) '-' with
    | none => simp only; rw [hcopy]; rfl
    | some m =>
      have h1 := (strchr_ge hm).1
      simp only
      rw [if_neg (by omega), hcopy]; rfl
  · rw [strchr_self hget]
    cases hm : strchr (pre ++ chunk ++ '-' :: rest) (pre.length + chunk.length) '+' with
    | none => simp only; rw [hcopy]; rfl
    | some m =>
      obtain ⟨h1, h2⟩ := strchr_ge hm
      have h3 : m ≠ pre.length + chunk.length := by
        rintro rfl
        rw [hget] at h2
        exact absurd h2 (by decide)
      simp only
      rw [if_pos (by omega), hcopy]; rfl

theorem getTerm_last {pre chunk : List Char} (hc : Chunk chunk) (hplus : pre = [] → chunk.head? ≠ some '+')
    (hsize : chunk.length + 1 < termSize) :
    getTerm (pre ++ chunk) (if pre.length = 0 then 0 else pre.length + 1) =
      some (chunk, if pre.length = 0 then 0 else pre.length + 1) := by
  have hne : chunk ≠ [] := by obtain ⟨d, b, rfl, _⟩ := hc; simp
  have e1 := chunk_skip (pre := pre) (rest := []) hc (c := '+') (.inl rfl)
  have e2 := chunk_skip (pre := pre) (rest := []) hc (c := '-') (.inr rfl)
  rw [List.append_nil] at e1 e2
  rw [getTerm_start rfl, e1, e2, strchr_none (by simp), strchr_none (by simp)]
  · simp only
    rw [if_pos (by simp; omega), List.drop_left' rfl]
  · intro h0
    have hp : pre = [] := List.length_eq_zero_iff.mp h0
    subst hp
    have := hplus rfl
    cases chunk with
    | nil => exact absurd rfl hne
    | cons d b => simpa using this

/-- The chunks behind the first one. -/
def Inner (c : List Char) : Prop := ∃ s b, c = s :: b ∧ Sign s ∧ (∀ x ∈ b, ¬ Sign x) ∧ c.length + 1 < termSize

theorem Inner.chunk {c : List Char} (h : Inner c) : Chunk c := by
  obtain ⟨s, b, h1, _, h2, _⟩ := h; exact ⟨s, b, h1, h2⟩

section
variable {α : Type} (names : List (List Char)) (first inner : List Char → α)

/-- The loop over the inner terms. -/
theorem inner_loop (line : List Char) (zero : List ℤ) (cs : List (List Char)) (hcs : ∀ c ∈ cs, Inner c) (pre : List Char)
    (hpre : pre ≠ []) (hline : line = pre ++ cs.flatten) (acc : List (α × List ℤ)) (out : List (List ℤ))
    (hout : List.Forall₂ (fun c e => storeExponent names c zero = some e) cs out) (r : List ℕ) (hr : r.length = cs.length) :
    ∃ pos', r.foldlM (fun (s : List (α × List ℤ) × ℕ) _ => do
      let (t, pos) ← getTerm line s.2
      let e ← storeExponent names t zero
      pure (s.1 ++ [(inner t, e)], pos)) (acc, pre.length + 1) =
      some (acc ++ (cs.zip out).map fun c => (inner c.1, c.2), pos') := by
  induction hout generalizing pre acc r with
  | nil =>
    rw [List.length_nil, List.length_eq_zero_iff] at hr
    subst hr
    exact ⟨pre.length + 1, by simp⟩
  | @cons c e cs out hce hrest ih =>
    obtain ⟨a, r, rfl⟩ : ∃ a r', r = a :: r' := by
      cases r with
      | nil => simp at hr
      | cons a r => exact ⟨a, r, rfl⟩
    have hc := hcs c List.mem_cons_self
    have hlen0 : pre.length ≠ 0 := fun h => hpre (List.length_eq_zero_iff.mp h)
    have hsz : c.length + 1 < termSize := by obtain ⟨_, _, _, _, _, h⟩ := hc; exact h
    have hget : ∃ q, getTerm line (pre.length + 1) = some (c, q) ∧ (cs ≠ [] → q = (pre ++ c).length + 1) := by
      cases cs with
      | nil =>
        have := getTerm_last (pre := pre) hc.chunk (fun h => absurd h hpre) hsz
        rw [if_neg hlen0] at this
        rw [hline, List.flatten_cons, List.flatten_nil, List.append_nil]
        exact ⟨_, this, fun h => absurd rfl h⟩
      | cons c' cs =>
        obtain ⟨s, b, rfl, hs, _, _⟩ := hcs c' (by simp)
        have := getTerm_mid (pre := pre) (rest := b ++ cs.flatten) hc.chunk hs (fun h => absurd h hpre) (by omega)
        rw [if_neg hlen0] at this
        rw [hline, List.flatten_cons, List.flatten_cons, ← List.append_assoc, List.cons_append]
        exact ⟨_, this, fun _ => by simp⟩
    obtain ⟨q, hq1, hq2⟩ := hget
    rw [List.foldlM_cons]
    simp only [hq1, hce, Option.bind_eq_bind, Option.bind_some, Option.pure_def]
    cases hcs2 : cs with
    | nil =>
      subst hcs2
      cases hrest
      have : r = [] := by simpa using hr
      subst this
      exact ⟨q, by simp⟩
    | cons c' cs' =>
      rw [hq2 (by rw [hcs2]; simp)]
      obtain ⟨pos', hp⟩ := ih (fun c hc => hcs c (List.mem_cons_of_mem _ hc)) (pre ++ c) (by simp [hpre])
        (by rw [hline, List.flatten_cons, List.append_assoc]) (acc ++ [(inner c, e)]) r (by simpa using hr)
      refine ⟨pos', ?_⟩
      simp only [Option.bind_eq_bind, Option.pure_def] at hp
      rw [hp, ← hcs2]; simp

/-- A line made of chunks is split into these chunks. -/
theorem parseTerms_chunks {c0 : List Char} {cs : List (List Char)} (h0 : Chunk c0) (hplus : c0.head? ≠ some '+')
    (hsz : c0.length + 1 < termSize) (hcs : ∀ c ∈ cs, Inner c) {e0 : List ℤ} {es : List (List ℤ)}
    (he0 : storeExponent names c0 (List.replicate names.length 0) = some e0)
    (hes : List.Forall₂ (fun c e => storeExponent names c (List.replicate names.length 0) = some e) cs es) {n : ℕ}
    (hn : n = cs.length + 1) :
    parseTerms names first inner (c0 ++ cs.flatten) n =
      some ((first c0, e0) :: (cs.zip es).map fun c => (inner c.1, c.2)) := by
  have hne : c0 ≠ [] := by obtain ⟨d, b, rfl, _⟩ := h0; simp
  have hget : ∃ q, getTerm (c0 ++ cs.flatten) 0 = some (c0, q) ∧ (cs ≠ [] → q = c0.length + 1) := by
    cases cs with
    | nil =>
      have := getTerm_last (pre := []) h0 (fun _ => hplus) hsz
      rw [List.flatten_nil, List.append_nil]
      exact ⟨_, this, fun h => absurd rfl h⟩
    | cons c' cs =>
      obtain ⟨s, b, rfl, hs, _, _⟩ := hcs c' (by simp)
      have := getTerm_mid (pre := []) (rest := b ++ cs.flatten) h0 hs (fun _ => hplus) (by omega)
      rw [List.flatten_cons, List.cons_append]
      simp only [List.nil_append, List.length_nil, if_true, Nat.zero_add] at this
      exact ⟨_, this, fun _ => rfl⟩
  obtain ⟨q, hq1, hq2⟩ := hget
  unfold parseTerms
  simp only [hq1, he0, Option.bind_eq_bind, Option.bind_some, Option.pure_def]
  subst hn
  rw [Nat.add_sub_cancel]
  by_cases hcs2 : cs = []
  · subst hcs2; cases hes; simp
  · rw [hq2 hcs2]
    obtain ⟨pos', hp⟩ := inner_loop names inner (c0 ++ cs.flatten) (List.replicate names.length 0) cs hcs c0 hne rfl
      [(first c0, e0)] es hes (List.range cs.length) (by simp)
    simp only [Option.bind_eq_bind, Option.pure_def] at hp
    rw [hp]; simp

end

/-! ### Factors -/

/-- The loop of `storeExponent` from position `op` on. -/
def storeLoop (names : List (List Char)) (term : List Char) (is : List ℕ) (s : ℕ × List ℤ) : Option (ℕ × List ℤ) :=
  is.foldlM (fun (s : ℕ × List ℤ) i =>
    if term[i]? = some '*' ∨ i = term.length then (storeFactor names term s.1 i s.2).map fun e => (i + 1, e) else some s) s

/-- The indices inside a piece change nothing. -/
theorem storeLoop_skip (names : List (List Char)) (term : List Char) (a n : ℕ) (rest : List ℕ) (s : ℕ × List ℤ)
    (h : ∀ i, a ≤ i → i < a + n → term[i]? ≠ some '*' ∧ i ≠ term.length) :
    storeLoop names term (List.range' a n ++ rest) s = storeLoop names term rest s := by
  induction n generalizing a with
  | zero => rfl
  | succ n ih =>
    rw [List.range'_succ, List.cons_append]
    unfold storeLoop
    rw [List.foldlM_cons, if_neg]
    · exact ih (a + 1) fun i h1 h2 => h i (by omega) (by omega)
    · rintro (h1 | h1)
      · exact (h a (by omega) (by omega)).1 h1
      · exact (h a (by omega) (by omega)).2 h1

/-- What `storeFactor` does with a piece, wherever it is. -/
def Does (names : List (List Char)) (p : List Char) (f : List ℤ → List ℤ) : Prop :=
  '*' ∉ p ∧ ∀ pre suf exps, (suf = [] ∨ suf.head? = some '*') →
    storeFactor names (pre ++ p ++ suf) pre.length (pre.length + p.length) exps = some (f exps)

/-- The pieces are treated one after the other. -/
theorem storeLoop_pieces (names : List (List Char)) (qs : List (List Char)) (fs : List (List ℤ → List ℤ)) (q : List Char)
    (f : List ℤ → List ℤ) (pre : List Char) (h : Does names q f) (hs : List.Forall₂ (Does names) qs fs) (exps : List ℤ) :
    (storeLoop names (pre ++ List.intercalate ['*'] (q :: qs))
      (List.range' pre.length ((List.intercalate ['*'] (q :: qs)).length + 1)) (pre.length, exps)).map (·.2) =
      some ((f :: fs).foldl (fun e f => f e) exps) := by
  induction hs generalizing q f pre exps with
  | nil =>
    have hi : List.intercalate ['*'] [q] = q := by simp [List.intercalate]
    rw [hi, List.range'_concat]
    rw [storeLoop_skip]
    · unfold storeLoop
      rw [List.foldlM_cons, if_pos (.inr (by simp)), Nat.one_mul]
      have := h.2 pre [] exps (.inl rfl)
      rw [List.append_nil] at this
      simp only
      rw [this]; simp
    · intro i h1 h2
      rw [List.getElem?_append_right h1]
      refine ⟨fun hh => h.1 (List.mem_of_getElem? hh), by simp; omega⟩
  | @cons q' f' qs fs hq' hrest ih =>
    have hi : List.intercalate ['*'] (q :: q' :: qs) = q ++ '*' :: List.intercalate ['*'] (q' :: qs) := by
      simp [List.intercalate, List.intersperse]
    rw [hi]
    have hlen : (q ++ '*' :: List.intercalate ['*'] (q' :: qs)).length + 1 =
        q.length + (1 + ((List.intercalate ['*'] (q' :: qs)).length + 1)) := by simp; omega
    rw [hlen, ← List.range'_append_1, storeLoop_skip]
    · rw [← List.range'_append_1, List.range'_one, List.singleton_append]
      unfold storeLoop
      have hstar' : (pre ++ (q ++ '*' :: List.intercalate ['*'] (q' :: qs)))[pre.length + q.length]? = some '*' := by
        rw [List.getElem?_append_right (by omega), List.getElem?_append_right (by omega)]; simp
      rw [List.foldlM_cons, if_pos (.inl hstar')]
      have h1 := h.2 pre ('*' :: List.intercalate ['*'] (q' :: qs)) exps (.inr rfl)
      rw [List.append_assoc] at h1
      simp only
      rw [h1]
      have h2 := ih q' f' (pre ++ q ++ ['*']) hq' (f exps)
      have e1 : (pre ++ q ++ ['*']).length = pre.length + q.length + 1 := by simp; omega
      have e2 : pre ++ q ++ ['*'] ++ List.intercalate ['*'] (q' :: qs) = pre ++ (q ++ '*' :: List.intercalate ['*'] (q' :: qs)) := by
        simp
      rw [e1, e2] at h2
      unfold storeLoop at h2
      simp only [Option.map_some, Option.bind_eq_bind, Option.bind_some]
      rw [h2]; rfl
    · intro i h1 h2
      rw [List.getElem?_append_right h1, List.getElem?_append_left (by omega)]
      refine ⟨fun hh => h.1 (List.mem_of_getElem? hh), by simp; omega⟩

theorem storeExponent_pieces (names : List (List Char)) (qs : List (List Char)) (fs : List (List ℤ → List ℤ)) (hne : qs ≠ [])
    (h : List.Forall₂ (Does names) qs fs) (exps : List ℤ) :
    storeExponent names (List.intercalate ['*'] qs) exps = some (fs.foldl (fun e f => f e) exps) := by
  cases h with
  | nil => exact absurd rfl hne
  | @cons q f qs fs h hs =>
    have := storeLoop_pieces names qs fs q f [] h hs exps
    rw [List.length_nil, ← List.range_eq_range', List.nil_append] at this
    exact this

theorem findIdx_append_not {p : Char → Bool} {a b : List Char} (h : ∀ x ∈ a, p x = false) :
    (a ++ b).findIdx p = a.length + b.findIdx p := by
  induction a with
  | nil => simp
  | cons x a ih =>
    rw [List.cons_append, List.findIdx_cons, h x List.mem_cons_self, cond_false, ih fun y hy => h y (List.mem_cons_of_mem _ hy),
      List.length_cons]
    omega

theorem takeWhile_stop {p : Char → Bool} {a b : List Char} (h : ∀ x ∈ a, p x = true) (hb : ∀ x l, b = x :: l → p x = false) :
    (a ++ b).takeWhile p = a := by
  rw [List.takeWhile_append_of_pos h]
  cases b with
  | nil => simp
  | cons x l => rw [List.takeWhile_cons, hb x l rfl]; simp

/-- Optional sign and optional trailing comma of a piece. -/
def IsSign (sg : List Char) : Prop := sg = [] ∨ sg = ['+'] ∨ sg = ['-']
def IsTail (tl : List Char) : Prop := tl = [] ∨ tl = [',']

/-- A piece without exponent. -/
theorem storeFactor_plain (names : List (List Char)) {pre sg nm tl suf : List Char} (hsg : IsSign sg) (htl : IsTail tl)
    (hsuf : suf = [] ∨ suf.head? = some '*') (hne : nm ≠ []) (hc : ∀ c ∈ nm, c ≠ '^' ∧ c ≠ ',' ∧ c ≠ ' ' ∧ c ≠ '+' ∧ c ≠ '-')
    (exps : List ℤ) :
    storeFactor names (pre ++ (sg ++ nm ++ tl) ++ suf) pre.length (pre.length + (sg ++ nm ++ tl).length) exps =
      some (match names.findIdx? (· = nm) with | some k => exps.set k 1 | none => exps) := by
  have hq : ((pre ++ (sg ++ nm ++ tl) ++ suf).take (pre.length + (sg ++ nm ++ tl).length)).drop pre.length = sg ++ nm ++ tl := by
    rw [List.take_left' (by simp), List.drop_left' rfl]
  have hfind : (sg ++ nm ++ tl).findIdx (· = '^') = (sg ++ nm ++ tl).length := by
    rw [List.findIdx_eq_length]
    intro x hx
    simp only [List.mem_append] at hx
    have hne : x ≠ '^' := by
      rcases hx with (hx | hx) | hx
      · rcases hsg with rfl | rfl | rfl <;> simp at hx <;> subst hx <;> decide
      · exact (hc x hx).1
      · rcases htl with rfl | rfl <;> simp at hx; subst hx; decide
    simpa using hne
  have hpos : 0 < nm.length := List.length_pos_iff.mpr hne
  obtain ⟨n0, nm', hnm⟩ := List.exists_cons_of_ne_nil hne
  have hskip : ((pre ++ (sg ++ nm ++ tl) ++ suf).drop pre.length).takeWhile (fun c => c = ' ' || c = '+' || c = '-') = sg := by
    rw [List.append_assoc, List.drop_left' rfl, List.append_assoc, List.append_assoc]
    apply takeWhile_stop
    · intro x hx; rcases hsg with rfl | rfl | rfl <;> simp at hx <;> subst hx <;> decide
    · intro x l hl
      rw [hnm] at hl
      simp only [List.cons_append, List.cons.injEq] at hl
      have := hc n0 (by rw [hnm]; exact List.mem_cons_self)
      rw [← hl.1]; simp [this.2.2]
  have hj : (if (pre ++ (sg ++ nm ++ tl) ++ suf)[pre.length + (sg ++ nm ++ tl).length - 1]? = some ',' then
      pre.length + (sg ++ nm ++ tl).length - 1 else pre.length + (sg ++ nm ++ tl).length) = pre.length + (sg ++ nm).length := by
    rcases htl with rfl | rfl
    · rw [List.append_nil, if_neg]
      rw [List.append_assoc, List.getElem?_append_right (by simp; omega), List.getElem?_append_left (by simp; omega),
        List.getElem?_append_right (by simp; omega)]
      intro hh
      exact (hc _ (List.mem_of_getElem? hh)).2.1 rfl
    · have hidx : pre.length + (sg ++ nm ++ [',']).length - 1 = (pre ++ (sg ++ nm)).length := by simp; omega
      rw [hidx, if_pos]
      · simp
      · rw [show pre ++ (sg ++ nm ++ [',']) ++ suf = (pre ++ (sg ++ nm)) ++ ',' :: suf by simp,
          List.getElem?_append_right le_rfl, Nat.sub_self]
        rfl
  have hcar : (pre ++ (sg ++ nm ++ tl) ++ suf)[pre.length + (sg ++ nm).length]? ≠ some '^' := by
    rw [List.append_assoc, List.getElem?_append_right (by omega), Nat.add_sub_cancel_left]
    rcases htl with rfl | rfl
    · rw [List.append_nil, List.getElem?_append_right le_rfl, Nat.sub_self]
      rcases hsuf with rfl | hs
      · simp
      · rw [← List.head?_eq_getElem?, hs]; decide
    · rw [List.append_assoc, List.getElem?_append_right le_rfl, Nat.sub_self]; simp
  unfold storeFactor
  simp only [hq, hfind]
  rw [if_neg (by simp only [List.length_append]; omega), hj, hskip, if_neg (by simp only [List.length_append]; omega), if_neg hcar]
  have hvar : ((pre ++ (sg ++ nm ++ tl) ++ suf).take (pre.length + (sg ++ nm).length)).drop (pre.length + sg.length) = nm := by
    rw [show pre ++ (sg ++ nm ++ tl) ++ suf = (pre ++ sg ++ nm) ++ (tl ++ suf) by simp, List.take_left' (by simp),
      List.drop_left' (by simp)]
  rw [hvar]
  have h1 : toInt32 (strtol ['1']) = 1 := by decide +kernel
  rw [h1]
  cases names.findIdx? (· = nm) with
  | none => rfl
  | some k => rfl

theorem ofDigitChars_nonneg (ds : List Char) : (0 : ℤ) ≤ (Nat.ofDigitChars 10 ds 0 : ℕ) := Int.natCast_nonneg _

theorem digit_not_space {c : Char} (h : c.isDigit = true) : isSpace c = false := by
  simp only [Char.isDigit, Bool.and_eq_true, decide_eq_true_eq] at h
  unfold isSpace
  have h1 : 48 ≤ c.toNat := h.1
  have h2 : c ≠ ' ' := by rintro rfl; revert h1; decide
  simp only [h2, decide_false, Bool.false_or, Bool.and_eq_false_iff, decide_eq_false_iff_not]
  right; omega

theorem digit_ne {c : Char} (h : c.isDigit = true) : c ≠ '-' ∧ c ≠ '+' ∧ c ≠ '*' ∧ c ≠ '^' ∧ c ≠ ',' ∧ c ≠ '/' ∧ c ≠ ' ' := by
  refine ⟨?_, ?_, ?_, ?_, ?_, ?_, ?_⟩ <;> rintro rfl <;> revert h <;> decide

/-- Reading an unsigned number. -/
theorem strtol_digits {ds tl : List Char} (hd : Spec.Text.Digits ds) (htl : ∀ x l, tl = x :: l → x.isDigit = false) :
    strtol (ds ++ tl) = min (Spec.Text.dec ds : ℤ) (2 ^ 63 - 1) := by
  obtain ⟨c, l, rfl⟩ := List.exists_cons_of_ne_nil hd.1
  have hc := hd.2 c List.mem_cons_self
  have h1 : ((c :: l) ++ tl).dropWhile isSpace = (c :: l) ++ tl := by
    rw [List.cons_append, List.dropWhile_cons, if_neg (by rw [digit_not_space hc]; decide)]
  have h2 : (match (c :: l) ++ tl with
    | '-' :: t => (true, t)
    | '+' :: t => (false, t)
    | t => (false, t)) = (false, (c :: l) ++ tl) := by
    rw [List.cons_append]
    split
    · next h => exact absurd (List.cons.inj h).1 (digit_ne hc).1
    · next h => exact absurd (List.cons.inj h).1 (digit_ne hc).2.1
    · rfl
  unfold strtol
  simp only [h1, h2, takeWhile_stop hd.2 htl]
  rfl

/-- A piece with exponent. -/
theorem storeFactor_exp (names : List (List Char)) {pre sg nm ds tl suf : List Char} (hsg : IsSign sg) (htl : IsTail tl)
    (hne : nm ≠ []) (hc : ∀ c ∈ nm, c ≠ '^' ∧ c ≠ ',' ∧ c ≠ ' ' ∧ c ≠ '+' ∧ c ≠ '-')
    (hd : Spec.Text.Digits ds) (hlt : Spec.Text.dec ds < 2 ^ 31) (exps : List ℤ) :
    storeFactor names (pre ++ (sg ++ (nm ++ '^' :: ds) ++ tl) ++ suf) pre.length (pre.length + (sg ++ (nm ++ '^' :: ds) ++ tl).length) exps =
      some (match names.findIdx? (· = nm) with | some k => exps.set k (Spec.Text.dec ds) | none => exps) := by
  have hq : ((pre ++ (sg ++ (nm ++ '^' :: ds) ++ tl) ++ suf).take (pre.length + (sg ++ (nm ++ '^' :: ds) ++ tl).length)).drop pre.length =
      sg ++ (nm ++ '^' :: ds) ++ tl := by
    rw [List.take_left' (by simp), List.drop_left' rfl]
  have hfind : (sg ++ (nm ++ '^' :: ds) ++ tl).findIdx (· = '^') = (sg ++ nm).length := by
    rw [show sg ++ (nm ++ '^' :: ds) ++ tl = (sg ++ nm) ++ '^' :: (ds ++ tl) by simp, findIdx_append_not, List.findIdx_cons]
    · simp
    · intro x hx
      simp only [List.mem_append] at hx
      have hne : x ≠ '^' := by
        rcases hx with hx | hx
        · rcases hsg with rfl | rfl | rfl <;> simp at hx <;> subst hx <;> decide
        · exact (hc x hx).1
      simpa using hne
  have hpos : 0 < nm.length := List.length_pos_iff.mpr hne
  obtain ⟨n0, nm', hnm⟩ := List.exists_cons_of_ne_nil hne
  have hskip : ((pre ++ (sg ++ (nm ++ '^' :: ds) ++ tl) ++ suf).drop pre.length).takeWhile (fun c => c = ' ' || c = '+' || c = '-') = sg := by
    rw [List.append_assoc, List.drop_left' rfl, List.append_assoc, List.append_assoc]
    apply takeWhile_stop
    · intro x hx; rcases hsg with rfl | rfl | rfl <;> simp at hx <;> subst hx <;> decide
    · intro x l hl
      rw [hnm] at hl
      simp only [List.cons_append, List.cons.injEq] at hl
      have := hc n0 (by rw [hnm]; exact List.mem_cons_self)
      rw [← hl.1]; simp [this.2.2]
  have hform : pre ++ (sg ++ (nm ++ '^' :: ds) ++ tl) ++ suf = (pre ++ sg ++ nm) ++ ('^' :: (ds ++ tl ++ suf)) := by simp
  have hj : (if (pre ++ (sg ++ (nm ++ '^' :: ds) ++ tl) ++ suf)[pre.length + (sg ++ nm).length - 1]? = some ',' then
      pre.length + (sg ++ nm).length - 1 else pre.length + (sg ++ nm).length) = pre.length + (sg ++ nm).length := by
    rw [if_neg]
    rw [hform, List.getElem?_append_left (by simp; omega), List.getElem?_append_right (by simp; omega)]
    intro hh
    exact (hc _ (List.mem_of_getElem? hh)).2.1 rfl
  have hcar : (pre ++ (sg ++ (nm ++ '^' :: ds) ++ tl) ++ suf)[pre.length + (sg ++ nm).length]? = some '^' := by
    rw [hform, List.getElem?_append_right (by simp), show pre.length + (sg ++ nm).length - (pre ++ sg ++ nm).length = 0 by simp]
    rfl
  unfold storeFactor
  simp only [hq, hfind]
  rw [if_neg (by simp only [List.length_append]; omega), hj, hskip, if_neg (by simp only [List.length_append]; omega), if_pos hcar]
  have hvar : ((pre ++ (sg ++ (nm ++ '^' :: ds) ++ tl) ++ suf).take (pre.length + (sg ++ nm).length)).drop (pre.length + sg.length) = nm := by
    rw [hform, List.take_left' (by simp), List.drop_left' (by simp)]
  have hev : ((pre ++ (sg ++ (nm ++ '^' :: ds) ++ tl) ++ suf).take (pre.length + (sg ++ (nm ++ '^' :: ds) ++ tl).length)).drop
      (pre.length + (sg ++ nm).length + 1) = ds ++ tl := by
    rw [List.take_left' (by simp), show pre ++ (sg ++ (nm ++ '^' :: ds) ++ tl) = (pre ++ sg ++ nm ++ ['^']) ++ (ds ++ tl) by simp,
      List.drop_left' (by simp [Nat.add_assoc])]
  rw [hvar, hev, strtol_digits hd]
  swap
  · intro x l hl; rcases htl with rfl | rfl <;> simp at hl; rw [← hl.1]; decide
  have h32 : toInt32 (min (Spec.Text.dec ds : ℤ) (2 ^ 63 - 1)) = Spec.Text.dec ds := by
    have h2 : ((Spec.Text.dec ds : ℕ) : ℤ) < 2 ^ 31 := by exact_mod_cast hlt
    rw [min_eq_left (by omega)]
    unfold toInt32
    omega
  rw [h32]
  cases names.findIdx? (· = nm) with
  | none => rfl
  | some k => rfl

/-! ### Terms of the grammar -/

open Verif.Spec.Text

/-- What a factor does to the exponents. -/
def facSet (f : Fac) (e : List ℤ) : List ℤ := e.set f.v (match f.e with | none => 1 | some ds => (dec ds : ℤ))

theorem name_chars {nm : List Char} (h : Name nm) : ∀ c ∈ nm, c ≠ '^' ∧ c ≠ ',' ∧ c ≠ ' ' ∧ c ≠ '+' ∧ c ≠ '-' := by
  intro c hc
  obtain ⟨h1, h2⟩ := h.2.2 c hc
  simp only [List.mem_cons, List.not_mem_nil, or_false, not_or] at h1
  refine ⟨h1.2.1, h1.2.2.2.2, ?_, h1.2.2.1, h1.2.2.2.1⟩
  rintro rfl; revert h2; decide

theorem num_chars {a : Num} (h : Digits a.n ∧ ∀ d, a.d = some d → Digits d) :
    ∀ c ∈ a.text, c.isDigit = true ∨ c = '/' := by
  intro c hc
  unfold Num.text at hc
  rw [List.mem_append] at hc
  rcases hc with hc | hc
  · exact .inl (h.1.2 c hc)
  · cases hd : a.d with
    | none => rw [hd] at hc; simp at hc
    | some d =>
      rw [hd] at hc
      simp only [List.mem_cons] at hc
      rcases hc with hc | hc
      · exact .inr hc
      · exact .inl ((h.2 d hd).2 c hc)

theorem findIdx?_nodup {names : List (List Char)} (hn : names.Nodup) {v : ℕ} (hv : v < names.length) :
    names.findIdx? (· = names.getD v []) = some v := by
  rw [List.findIdx?_eq_some_iff_getElem]
  refine ⟨hv, by simp [List.getD_eq_getElem?_getD, List.getElem?_eq_getElem hv], fun j hj => ?_⟩
  have hne : names[j] ≠ names.getD v [] := by
    rw [List.getD_eq_getElem?_getD, List.getElem?_eq_getElem hv, Option.getD_some]
    intro hh
    have := (List.Nodup.getElem_inj_iff hn (hi := by omega) (hj := hv)).mp hh
    omega
  simpa using hne

/-- Pieces with an optional sign and an optional comma. -/
def Piece (names : List (List Char)) (p : List Char) (f : List ℤ → List ℤ) : Prop :=
  ∀ sg tl, IsSign sg → IsTail tl → Does names (sg ++ p ++ tl) f

theorem star_deco {sg p tl : List Char} (hsg : IsSign sg) (htl : IsTail tl) (h : '*' ∉ p) : '*' ∉ sg ++ p ++ tl := by
  simp only [List.mem_append, not_or]
  refine ⟨⟨?_, h⟩, ?_⟩
  · rcases hsg with rfl | rfl | rfl <;> decide
  · rcases htl with rfl | rfl <;> decide

theorem piece_num {names : List (List Char)} (hnm : ∀ nm ∈ names, Name nm) {a : Num} (h : Digits a.n ∧ ∀ d, a.d = some d → Digits d) :
    Piece names a.text id := by
  intro sg tl hsg htl
  have hch := num_chars h
  have hne : a.text ≠ [] := by unfold Num.text; simp [h.1.1]
  refine ⟨star_deco hsg htl fun hh => ?_, fun pre suf exps hsuf => ?_⟩
  · rcases hch _ hh with h1 | h1
    · revert h1; decide
    · revert h1; decide
  · rw [storeFactor_plain names hsg htl hsuf hne fun c hc => ?_]
    · have : names.findIdx? (· = a.text) = none := by
        rw [List.findIdx?_eq_none_iff]
        intro nm hm
        have hx : nm ≠ a.text := by
          rintro rfl
          obtain ⟨c, l, hcl⟩ := List.exists_cons_of_ne_nil h.1.1
          have h1 := (hnm _ hm).2.1 c (l ++ match a.d with | none => [] | some d => '/' :: d) (by unfold Num.text; rw [hcl]; rfl)
          rw [h.1.2 c (by rw [hcl]; exact List.mem_cons_self)] at h1
          exact absurd h1 (by decide)
        simpa using hx
      rw [this]; rfl
    · rcases hch c hc with h1 | rfl
      · have := digit_ne h1
        exact ⟨this.2.2.2.1, this.2.2.2.2.1, this.2.2.2.2.2.2, this.2.1, this.1⟩
      · decide

theorem piece_fac {names : List (List Char)} (hnm : ∀ nm ∈ names, Name nm) (hn : names.Nodup) {f : Fac} (hv : f.v < names.length)
    (he : ∀ ds, f.e = some ds → Digits ds ∧ dec ds < 2 ^ 31) : Piece names (f.text names) (facSet f) := by
  intro sg tl hsg htl
  have hmem : names.getD f.v [] ∈ names := by
    rw [List.getD_eq_getElem?_getD, List.getElem?_eq_getElem hv, Option.getD_some]; exact List.getElem_mem hv
  have hname := hnm _ hmem
  have hstar : '*' ∉ names.getD f.v [] := by
    intro hh
    have := (hname.2.2 _ hh).1
    revert this; decide
  cases hfe : f.e with
  | none =>
    have ht : f.text names = names.getD f.v [] := by unfold Fac.text; rw [hfe]; simp
    rw [ht]
    refine ⟨star_deco hsg htl hstar, fun pre suf exps hsuf => ?_⟩
    rw [storeFactor_plain names hsg htl hsuf hname.1 (name_chars hname), findIdx?_nodup hn hv]
    unfold facSet; rw [hfe]
  | some ds =>
    obtain ⟨hd, hlt⟩ := he ds hfe
    have ht : f.text names = names.getD f.v [] ++ '^' :: ds := by unfold Fac.text; rw [hfe]
    rw [ht]
    refine ⟨star_deco hsg htl ?_, fun pre suf exps hsuf => ?_⟩
    · simp only [List.mem_append, List.mem_cons, not_or]
      refine ⟨hstar, by decide, fun hh => ?_⟩
      have := hd.2 _ hh
      revert this; decide
    · rw [storeFactor_exp names hsg htl hname.1 (name_chars hname) hd hlt, findIdx?_nodup hn hv]
      unfold facSet; rw [hfe]

/-- Sign and comma are attached to the first and the last piece. -/
theorem deco_pieces {names : List (List Char)} {ps : List (List Char)} {fs : List (List ℤ → List ℤ)}
    (h : List.Forall₂ (Piece names) ps fs) (hne : ps ≠ []) {sg tl : List Char} (hsg : IsSign sg) (htl : IsTail tl) :
    ∃ qs, qs ≠ [] ∧ List.intercalate ['*'] qs = sg ++ List.intercalate ['*'] ps ++ tl ∧ List.Forall₂ (Does names) qs fs := by
  induction h generalizing sg with
  | nil => exact absurd rfl hne
  | @cons p f ps fs hp hps ih =>
    cases ps with
    | nil =>
      cases hps
      exact ⟨[sg ++ p ++ tl], by simp, by simp [List.intercalate], .cons (hp sg tl hsg htl) .nil⟩
    | cons p' ps =>
      obtain ⟨qs, h1, h2, h3⟩ := ih (by simp) (sg := []) (.inl rfl)
      refine ⟨(sg ++ p) :: qs, by simp, ?_, .cons ?_ h3⟩
      · obtain ⟨q, qs', rfl⟩ := List.exists_cons_of_ne_nil h1
        have e1 : List.intercalate ['*'] ((sg ++ p) :: q :: qs') = sg ++ p ++ '*' :: List.intercalate ['*'] (q :: qs') := by
          simp [List.intercalate, List.intersperse]
        have e2 : List.intercalate ['*'] (p :: p' :: ps) = p ++ '*' :: List.intercalate ['*'] (p' :: ps) := by
          simp [List.intercalate, List.intersperse]
        rw [e1, e2, h2]; simp
      · have := hp sg [] hsg (.inl rfl)
        rw [List.append_nil] at this; exact this

/-- The exponents of a term. -/
theorem fold_facSet {fs : List Fac} (hn : (fs.map (·.v)).Nodup) (n : ℕ) (hv : ∀ f ∈ fs, f.v < n) (e : List ℤ) (he : e.length = n)
    (hz : ∀ f ∈ fs, e[f.v]? = some 0) :
    (fs.foldl (fun e f => facSet f e) e).length = n ∧ ∀ k, k < n → (fs.foldl (fun e f => facSet f e) e)[k]? =
      some (e.getD k 0 + (((fs.filter fun f => f.v = k).map fun f => match f.e with | none => 1 | some ds => dec ds).sum : ℕ)) := by
  induction fs generalizing e with
  | nil =>
    refine ⟨he, fun k hk => ?_⟩
    simp [List.getElem?_eq_getElem (show k < e.length by omega)]
  | cons f fs ih =>
    rw [List.map_cons, List.nodup_cons] at hn
    have hne : ∀ g ∈ fs, g.v ≠ f.v := fun g hg hh => hn.1 (by rw [← hh]; exact List.mem_map_of_mem hg)
    have hlen : (facSet f e).length = n := by unfold facSet; rw [List.length_set, he]
    obtain ⟨i1, i2⟩ := ih hn.2 (fun g hg => hv g (List.mem_cons_of_mem _ hg)) (facSet f e) hlen (fun g hg => by
      unfold facSet
      rw [List.getElem?_set_ne (Ne.symm (hne g hg))]
      exact hz g (List.mem_cons_of_mem _ hg))
    refine ⟨i1, fun k hk => ?_⟩
    rw [List.foldl_cons, i2 k hk]
    by_cases hk2 : f.v = k
    · have hfil : fs.filter (fun g => g.v = k) = [] := by
        rw [List.filter_eq_nil_iff]
        intro g hg
        have := hne g hg
        rw [hk2] at this
        simpa using this
      rw [List.filter_cons_of_pos (by simpa using hk2), hfil]
      have h0 := hz f List.mem_cons_self
      rw [hk2] at h0
      have e1 : e.getD k 0 = 0 := by rw [List.getD_eq_getElem?_getD, h0]; rfl
      have e2 : (facSet f e).getD k 0 = (match f.e with | none => 1 | some ds => (dec ds : ℤ)) := by
        unfold facSet
        rw [hk2, List.getD_eq_getElem?_getD, List.getElem?_set_self (by omega), Option.getD_some]
      rw [e1, e2]
      rcases f with ⟨fv, fe⟩
      cases fe <;> simp
    · rw [List.filter_cons_of_neg (by simpa using hk2)]
      have e2 : (facSet f e).getD k 0 = e.getD k 0 := by
        unfold facSet
        rw [List.getD_eq_getElem?_getD, List.getElem?_set_ne hk2, List.getD_eq_getElem?_getD]
      rw [e2]

/-- The row of exponents that a term is written with. -/
def expoRow (n : ℕ) (t : Mon) : List ℤ := (List.range n).map fun k => (t.expo k : ℤ)

/-- `storeExponent` on a term with sign and comma. -/
theorem storeExponent_term {names : List (List Char)} (hnm : ∀ nm ∈ names, Name nm) (hn : names.Nodup) {t : Mon} (ht : t.Ok names)
    {sg tl : List Char} (hsg : IsSign sg) (htl : IsTail tl) :
    storeExponent names (sg ++ t.body names ++ tl) (List.replicate names.length 0) = some (expoRow names.length t) := by
  have hps : List.Forall₂ (Piece names) (t.pieces names) ((t.num.map fun _ => id).toList ++ t.fs.map facSet) := by
    unfold Mon.pieces
    apply List.rel_append
    · cases hnum : t.num with
      | none => exact .nil
      | some a => exact .cons (piece_num hnm (ht.num a hnum)) .nil
    · rw [List.forall₂_map_left_iff, List.forall₂_map_right_iff, List.forall₂_same]
      exact fun f hf => piece_fac hnm hn (ht.vars f hf) (ht.exps f hf)
  have hne : t.pieces names ≠ [] := by
    unfold Mon.pieces
    rcases ht.some with h | h
    · cases hnum : t.num with
      | none => exact absurd hnum h
      | some a => simp
    · simp [h]
  obtain ⟨qs, h1, h2, h3⟩ := deco_pieces hps hne hsg htl
  unfold Mon.body
  rw [← h2, storeExponent_pieces names qs _ h1 h3]
  congr 1
  rw [List.foldl_append]
  have hid : ((t.num.map fun _ => (id : List ℤ → List ℤ)).toList).foldl (fun e f => f e) (List.replicate names.length 0) =
      List.replicate names.length 0 := by cases t.num <;> rfl
  rw [hid, List.foldl_map]
  obtain ⟨i1, i2⟩ := fold_facSet ht.nodup names.length ht.vars (List.replicate names.length 0) (by simp) (fun f hf => by
    rw [List.getElem?_replicate, if_pos (ht.vars f hf)])
  apply List.ext_getElem?
  intro k
  unfold expoRow
  rcases Nat.lt_or_ge k names.length with hk | hk
  · rw [i2 k hk, List.getElem?_map, List.getElem?_range hk]
    simp only [Mon.expo, Option.map_some, List.getD_eq_getElem?_getD, List.getElem?_replicate, hk, if_true, Option.getD_some, zero_add]
    rfl
  · rw [List.getElem?_eq_none (by omega), List.getElem?_eq_none (by simp; omega)]

/-! ### Characters of a term -/

theorem fac_chars {names : List (List Char)} (hnm : ∀ nm ∈ names, Name nm) {f : Fac} (hv : f.v < names.length)
    (he : ∀ ds, f.e = some ds → Digits ds ∧ dec ds < 2 ^ 31) :
    (∃ c l, f.text names = c :: l ∧ c.isDigit = false ∧ isSpace c = false) ∧
      ∀ c ∈ f.text names, c ≠ '*' ∧ c ≠ ',' ∧ c ≠ '+' ∧ c ≠ '-' ∧ isSpace c = false := by
  have hmem : names.getD f.v [] ∈ names := by
    rw [List.getD_eq_getElem?_getD, List.getElem?_eq_getElem hv, Option.getD_some]; exact List.getElem_mem hv
  have hname := hnm _ hmem
  obtain ⟨c, l, hcl⟩ := List.exists_cons_of_ne_nil hname.1
  refine ⟨⟨c, l ++ (match f.e with | none => [] | some ds => '^' :: ds), ?_, hname.2.1 c l hcl,
    (hname.2.2 c (by rw [hcl]; exact List.mem_cons_self)).2⟩, fun x hx => ?_⟩
  · unfold Fac.text; rw [hcl]; rfl
  · unfold Fac.text at hx
    rw [List.mem_append] at hx
    rcases hx with hx | hx
    · have h1 := hname.2.2 x hx
      have h2 := name_chars hname x hx
      refine ⟨?_, h2.2.1, h2.2.2.2.1, h2.2.2.2.2, h1.2⟩
      rintro rfl; exact h1.1 (by decide)
    · cases hfe : f.e with
      | none => rw [hfe] at hx; simp at hx
      | some ds =>
        rw [hfe] at hx
        simp only [List.mem_cons] at hx
        rcases hx with rfl | hx
        · decide
        · have h1 := (he ds hfe).1.2 x hx
          have h2 := digit_ne h1
          exact ⟨h2.2.2.1, h2.2.2.2.2.1, h2.2.1, h2.1, digit_not_space h1⟩

theorem piece_chars {names : List (List Char)} (hnm : ∀ nm ∈ names, Name nm) {t : Mon} (ht : t.Ok names) {q : List Char}
    (hq : q ∈ t.pieces names) : q ≠ [] ∧ ∀ c ∈ q, c ≠ '*' ∧ c ≠ ',' ∧ c ≠ '+' ∧ c ≠ '-' ∧ isSpace c = false := by
  unfold Mon.pieces at hq
  rw [List.mem_append] at hq
  rcases hq with hq | hq
  · cases hnum : t.num with
    | none => rw [hnum] at hq; simp at hq
    | some a =>
      rw [hnum] at hq
      simp only [Option.map_some, Option.toList_some, List.mem_singleton] at hq
      subst hq
      refine ⟨by unfold Num.text; simp [(ht.num a hnum).1.1], fun c hc => ?_⟩
      rcases num_chars (ht.num a hnum) c hc with h1 | rfl
      · have h2 := digit_ne h1
        exact ⟨h2.2.2.1, h2.2.2.2.2.1, h2.2.1, h2.1, digit_not_space h1⟩
      · decide
  · rw [List.mem_map] at hq
    obtain ⟨f, hf, rfl⟩ := hq
    obtain ⟨⟨c, l, h1, _⟩, h2⟩ := fac_chars hnm (ht.vars f hf) (ht.exps f hf)
    exact ⟨by rw [h1]; simp, h2⟩

theorem mem_intercalate {q : List (List Char)} {c : Char} (h : c ∈ List.intercalate ['*'] q) : c = '*' ∨ ∃ p ∈ q, c ∈ p := by
  induction q with
  | nil => simp [List.intercalate] at h
  | cons p q ih =>
    cases q with
    | nil => right; exact ⟨p, by simp, by simpa [List.intercalate] using h⟩
    | cons p' q =>
      have e1 : List.intercalate ['*'] (p :: p' :: q) = p ++ '*' :: List.intercalate ['*'] (p' :: q) := by
        simp [List.intercalate, List.intersperse]
      rw [e1, List.mem_append, List.mem_cons] at h
      rcases h with h | h | h
      · exact .inr ⟨p, by simp, h⟩
      · exact .inl h
      · rcases ih h with h | ⟨p2, h1, h2⟩
        · exact .inl h
        · exact .inr ⟨p2, List.mem_cons_of_mem _ h1, h2⟩

theorem body_chars {names : List (List Char)} (hnm : ∀ nm ∈ names, Name nm) {t : Mon} (ht : t.Ok names) :
    ∀ c ∈ t.body names, c ≠ ',' ∧ c ≠ '+' ∧ c ≠ '-' ∧ isSpace c = false := by
  intro c hc
  rcases mem_intercalate hc with rfl | ⟨p, hp, hcp⟩
  · decide
  · exact ((piece_chars hnm ht hp).2 c hcp).2

/-- The first piece of a term. -/
theorem body_first {names : List (List Char)} {t : Mon} (ht : t.Ok names) :
    ∃ q rest, q ∈ t.pieces names ∧ t.body names = q ++ rest ∧ (rest = [] ∨ rest.head? = some '*') ∧
      (∀ a, t.num = some a → q = a.text) ∧ (t.num = none → ∃ f ∈ t.fs, q = f.text names) := by
  have key : ∀ q ps, t.pieces names = q :: ps → ∃ rest, t.body names = q ++ rest ∧ (rest = [] ∨ rest.head? = some '*') := by
    intro q ps h
    unfold Mon.body
    rw [h]
    cases ps with
    | nil => exact ⟨[], by simp [List.intercalate], .inl rfl⟩
    | cons p ps => exact ⟨'*' :: List.intercalate ['*'] (p :: ps), by simp [List.intercalate, List.intersperse], .inr rfl⟩
  cases hnum : t.num with
  | some a =>
    have hp : t.pieces names = a.text :: t.fs.map (Fac.text names) := by unfold Mon.pieces; rw [hnum]; rfl
    obtain ⟨rest, h1, h2⟩ := key _ _ hp
    refine ⟨a.text, rest, by rw [hp]; exact List.mem_cons_self, h1, h2, fun b hb => ?_, by simp⟩
    cases hb; rfl
  | none =>
    have hfs : t.fs ≠ [] := by
      rcases ht.some with h | h
      · exact absurd hnum h
      · exact h
    obtain ⟨f, fs, hf⟩ := List.exists_cons_of_ne_nil hfs
    have hp : t.pieces names = f.text names :: fs.map (Fac.text names) := by unfold Mon.pieces; rw [hnum, hf]; rfl
    obtain ⟨rest, h1, h2⟩ := key _ _ hp
    exact ⟨f.text names, rest, by rw [hp]; exact List.mem_cons_self, h1, h2, by simp, fun _ => ⟨f, by rw [hf]; exact List.mem_cons_self, rfl⟩⟩

theorem body_ne_nil {names : List (List Char)} (hnm : ∀ nm ∈ names, Name nm) {t : Mon} (ht : t.Ok names) : t.body names ≠ [] := by
  obtain ⟨q, rest, h1, h2, _⟩ := body_first ht
  rw [h2]
  simp [(piece_chars hnm ht h1).1]

/-! ### Coefficients over a prime field -/

theorem strtol_plus {s : List Char} (h : ∀ c l, s = c :: l → isSpace c = false ∧ c ≠ '+' ∧ c ≠ '-') : strtol ('+' :: s) = strtol s := by
  have h1 : ('+' :: s).dropWhile isSpace = '+' :: s := by rw [List.dropWhile_cons, if_neg (by decide)]
  cases s with
  | nil => decide
  | cons c l =>
    obtain ⟨hs, hp, hm⟩ := h c l rfl
    have h2 : (c :: l).dropWhile isSpace = c :: l := by rw [List.dropWhile_cons, if_neg (by rw [hs]; decide)]
    unfold strtol
    simp only [h1, h2]
    split <;> simp_all

theorem strtol_minus {s : List Char} (h : ∀ c l, s = c :: l → isSpace c = false ∧ c ≠ '+' ∧ c ≠ '-') (hlt : strtol s < 2 ^ 63 - 1) :
    strtol ('-' :: s) = - strtol s := by
  have h1 : ('-' :: s).dropWhile isSpace = '-' :: s := by rw [List.dropWhile_cons, if_neg (by decide)]
  cases s with
  | nil => decide
  | cons c l =>
    obtain ⟨hs, hp, hm⟩ := h c l rfl
    have h2 : (c :: l).dropWhile isSpace = c :: l := by rw [List.dropWhile_cons, if_neg (by rw [hs]; decide)]
    have h3 : strtol (c :: l) = min ((Nat.ofDigitChars 10 ((c :: l).takeWhile Char.isDigit) 0 : ℕ) : ℤ) (2 ^ 63 - 1) := by
      unfold strtol
      simp only [h2]
      split <;> simp_all
    have h4 : strtol ('-' :: c :: l) = max (-((Nat.ofDigitChars 10 ((c :: l).takeWhile Char.isDigit) 0 : ℕ) : ℤ)) (-2 ^ 63) := by
      unfold strtol
      simp only [h1, if_true]
    rw [h3] at hlt ⊢
    rw [h4]
    omega

theorem strtol_text {c : Char} {l : List Char} (h1 : c.isDigit = false) (h2 : isSpace c = false) (h3 : c ≠ '+') (h4 : c ≠ '-') :
    strtol (c :: l) = 0 := by
  have h5 : (c :: l).dropWhile isSpace = c :: l := by rw [List.dropWhile_cons, if_neg (by rw [h2]; decide)]
  have h6 : (match c :: l with
    | '-' :: t => (true, t)
    | '+' :: t => (false, t)
    | t => (false, t)) = (false, c :: l) := by
    split
    · next h => exact absurd (List.cons.inj h).1 h4
    · next h => exact absurd (List.cons.inj h).1 h3
    · rfl
  unfold strtol
  simp only [h5, h6, List.takeWhile_cons, h1, Bool.false_eq_true, if_false]
  decide

/-- The number at the beginning of a term without sign: the numeral, or zero. -/
theorem strtol_body {names : List (List Char)} (hnm : ∀ nm ∈ names, Name nm) {t : Mon} (ht : t.Ok names) {tl : List Char} (htl : IsTail tl)
    (hlt : ∀ a, t.num = some a → a.d = none ∧ dec a.n < 2 ^ 63 - 1) :
    strtol (t.body names ++ tl) = (match t.num with | none => 0 | some a => (dec a.n : ℤ)) := by
  obtain ⟨q, rest, h1, h2, h3, h4, h5⟩ := body_first ht
  cases hnum : t.num with
  | none =>
    obtain ⟨f, hf, rfl⟩ := h5 hnum
    obtain ⟨⟨c, l, hcl, hd, hs⟩, hch⟩ := fac_chars hnm (ht.vars f hf) (ht.exps f hf)
    have := hch c (by rw [hcl]; exact List.mem_cons_self)
    rw [h2, hcl]
    exact strtol_text hd hs this.2.2.1 this.2.2.2.1
  | some a =>
    have hq := h4 a hnum
    have ha := hlt a hnum
    have hqt : q = a.n := by rw [hq]; unfold Num.text; rw [ha.1]; simp
    rw [h2, hqt, List.append_assoc, strtol_digits (ht.num a hnum).1]
    · simp only
      have := ha.2
      omega
    · intro x l hx
      rcases h3 with rfl | h3
      · rcases htl with rfl | rfl
        · simp at hx
        · simp only [List.nil_append, List.cons.injEq] at hx
          rw [← hx.1]; decide
      · cases rest with
        | nil => simp at h3
        | cons y r =>
          simp only [List.head?_cons, Option.some.injEq] at h3
          simp only [List.cons_append, List.cons.injEq] at hx
          rw [← hx.1, h3]; decide

theorem body_head {names : List (List Char)} (hnm : ∀ nm ∈ names, Name nm) {t : Mon} (ht : t.Ok names) (tl : List Char) :
    ∀ c l, t.body names ++ tl = c :: l → isSpace c = false ∧ c ≠ '+' ∧ c ≠ '-' := by
  intro c l h
  obtain ⟨d, m, hb⟩ := List.exists_cons_of_ne_nil (body_ne_nil hnm ht)
  rw [hb, List.cons_append, List.cons.injEq] at h
  have := body_chars hnm ht d (by rw [hb]; exact List.mem_cons_self)
  rw [← h.1]
  exact ⟨this.2.2.2, this.2.1, this.2.2.1⟩

theorem dec_zero {c : Char} {l : List Char} (h : c.isDigit = true) (h0 : dec (c :: l) = 0) : c = '0' := by
  unfold dec at h0
  rw [Nat.ofDigitChars_cons, Nat.ofDigitChars_eq_ofDigitChars_zero] at h0
  have h1 : (10 : ℕ) ^ l.length ≠ 0 := by positivity
  have h2 : 10 * 0 + (c.toNat - '0'.toNat) = 0 := by
    by_contra hne
    have : 0 < 10 ^ l.length * (10 * 0 + (c.toNat - '0'.toNat)) := Nat.mul_pos (Nat.pos_of_ne_zero h1) (Nat.pos_of_ne_zero hne)
    omega
  simp only [Char.isDigit, Bool.and_eq_true, decide_eq_true_eq] at h
  have h3 : 48 ≤ c.toNat := h.1
  have h4 : ('0' : Char).toNat = 48 := by decide
  rw [h4] at h2
  have h5 : c.toNat = 48 := by omega
  apply Char.toNat_inj.mp
  rw [h5, h4]

/-- The sign in front of a term: at the beginning of a line only the minus is written. -/
def sign0 (t : Mon) : List Char := if t.neg then ['-'] else []
def sign1 (t : Mon) : List Char := if t.neg then ['-'] else ['+']

theorem addUntil_mod (v : ℤ) (p : ℕ) : (addUntil v p) % p = v % p := by
  unfold addUntil; split
  · rw [Int.emod_emod_of_dvd _ dvd_rfl]
  · rfl

theorem toInt32_id {v : ℤ} (h1 : -2 ^ 31 ≤ v) (h2 : v < 2 ^ 31) : toInt32 v = v := by unfold toInt32; omega

theorem firstCoef_term {names : List (List Char)} (hnm : ∀ nm ∈ names, Name nm) {t : Mon} (ht : t.Ok names) {tl : List Char} (htl : IsTail tl)
    (hn : FirstNum t) (p : ℕ) : firstCoef (sign0 t ++ t.body names ++ tl) p = addUntil t.numer p := by
  have hs := strtol_body hnm ht htl fun a ha => ⟨(hn a ha).1, by have := (hn a ha).2.1; omega⟩
  have hh := body_head hnm ht tl
  have hlt : strtol (t.body names ++ tl) < 2 ^ 31 := by
    rw [hs]
    cases hnum : t.num with
    | none => norm_num
    | some a => simp only; exact_mod_cast (hn a hnum).2.1
  have hge : 0 ≤ strtol (t.body names ++ tl) := by
    rw [hs]; cases t.num with
    | none => exact le_refl _
    | some a => exact Int.natCast_nonneg _
  unfold firstCoef
  simp only
  congr 1
  unfold sign0 Mon.numer
  cases hneg : t.neg with
  | true =>
    simp only [if_true, List.cons_append, List.nil_append, List.head?_cons]
    rw [strtol_minus hh (by omega), toInt32_id (by omega) (by omega), hs]
    cases hnum : t.num with
    | none => rfl
    | some a =>
      have := (hn a hnum).2.2 hneg
      simp only
      rw [if_neg (by omega)]; ring
  | false =>
    simp only [List.nil_append, Bool.false_eq_true, if_false]
    rw [toInt32_id (by omega) (by omega), hs]
    obtain ⟨q, rest, h1, h2, h3, h4, h5⟩ := body_first ht
    cases hnum : t.num with
    | none =>
      obtain ⟨f, hf, rfl⟩ := h5 hnum
      obtain ⟨⟨c, l, hcl, hd, _⟩, hch⟩ := fac_chars hnm (ht.vars f hf) (ht.exps f hf)
      have := hch c (by rw [hcl]; exact List.mem_cons_self)
      simp only [if_true]
      rw [h2, hcl]
      simp only [List.cons_append, List.head?_cons]
      split
      · next h => simp only [Option.some.injEq] at h; rw [h] at hd; exact absurd hd (by decide)
      · next h => simp only [Option.some.injEq] at h; exact absurd h this.2.2.2.1
      · rfl
    | some a =>
      simp only
      by_cases h0 : dec a.n = 0
      · rw [h0]
        simp only [Nat.cast_zero, if_true, mul_zero]
        obtain ⟨c, l, hcl⟩ := List.exists_cons_of_ne_nil (ht.num a hnum).1.1
        have hc : c = '0' := dec_zero ((ht.num a hnum).1.2 c (by rw [hcl]; exact List.mem_cons_self)) (by rw [← hcl]; exact h0)
        rw [h2, h4 a hnum]
        unfold Num.text
        rw [hcl, hc]
        simp
      · rw [if_neg (by omega)]; ring

theorem innerCoef_term {names : List (List Char)} (hnm : ∀ nm ∈ names, Name nm) {t : Mon} (ht : t.Ok names) {tl : List Char} (htl : IsTail tl)
    (hn : InnerNum t) {p : ℕ} (hp : 0 < p) (hp2 : p < 2 ^ 31) :
    innerCoef (sign1 t ++ t.body names ++ tl) p = t.numer % p := by
  have hs := strtol_body hnm ht htl fun a ha => ⟨(hn a ha).1, (hn a ha).2.1⟩
  have hh := body_head hnm ht tl
  have hlt : strtol (t.body names ++ tl) < 2 ^ 63 - 1 := by
    rw [hs]
    cases hnum : t.num with
    | none => norm_num
    | some a => simp only; have := (hn a hnum).2.1; omega
  have hcf : (let cf := strtol (sign1 t ++ t.body names ++ tl)
      if cf = 0 then (if (sign1 t ++ t.body names ++ tl).head? = some '-' then -1 else 1) else cf) = t.numer := by
    simp only
    unfold sign1 Mon.numer
    cases hneg : t.neg with
    | true =>
      simp only [if_true, List.cons_append, List.nil_append, List.head?_cons]
      rw [strtol_minus hh hlt, hs]
      cases hnum : t.num with
      | none => rfl
      | some a =>
        have := (hn a hnum).2.2
        simp only
        rw [if_neg (by omega)]; ring
    | false =>
      simp only [Bool.false_eq_true, if_false, List.cons_append, List.nil_append, List.head?_cons]
      rw [strtol_plus hh, hs]
      cases hnum : t.num with
      | none => rfl
      | some a =>
        have := (hn a hnum).2.2
        simp only
        rw [if_neg (by omega)]; ring
  unfold innerCoef
  simp only at hcf ⊢
  rw [hcf]
  have h0 : 0 ≤ addUntil t.numer p := by
    unfold addUntil; split
    · exact Int.emod_nonneg _ (by omega)
    · omega
  rw [Int.tmod_eq_emod_of_nonneg h0, addUntil_mod]
  have h1 := Int.emod_nonneg t.numer (show (p : ℤ) ≠ 0 by omega)
  have h2 := Int.emod_lt_of_pos t.numer (show (0 : ℤ) < p by omega)
  exact toInt32_id (by omega) (by omega)

/-! ### Coefficients over the rationals -/

/-- The text up to the first star or comma is sign and first piece. -/
theorem takeWhile_first {names : List (List Char)} (hnm : ∀ nm ∈ names, Name nm) {t : Mon} (ht : t.Ok names) {sg tl q rest : List Char}
    (hsg : IsSign sg) (htl : IsTail tl) (hq : q ∈ t.pieces names) (hb : t.body names = q ++ rest) (hr : rest = [] ∨ rest.head? = some '*') :
    (sg ++ t.body names ++ tl).takeWhile (fun c => c ≠ '*' && c ≠ ',') = sg ++ q := by
  rw [hb, show sg ++ (q ++ rest) ++ tl = (sg ++ q) ++ (rest ++ tl) by simp]
  apply takeWhile_stop
  · intro x hx
    rw [List.mem_append] at hx
    rcases hx with hx | hx
    · rcases hsg with rfl | rfl | rfl
      · simp at hx
      · simp only [List.mem_singleton] at hx; subst hx; decide
      · simp only [List.mem_singleton] at hx; subst hx; decide
    · have := (piece_chars hnm ht hq).2 x hx
      simp [this.1, this.2.1]
  · intro x l hx
    rcases hr with rfl | hr
    · rcases htl with rfl | rfl
      · simp at hx
      · simp only [List.nil_append, List.cons.injEq] at hx
        rw [← hx.1]; decide
    · cases rest with
      | nil => simp at hr
      | cons y r =>
        simp only [List.head?_cons, Option.some.injEq] at hr
        simp only [List.cons_append, List.cons.injEq] at hx
        rw [← hx.1, hr]; decide

theorem dropWhile_stop {p : Char → Bool} {a b : List Char} (h : ∀ x ∈ a, p x = true) (hb : ∀ x l, b = x :: l → p x = false) :
    (a ++ b).dropWhile p = b := by
  induction a with
  | nil =>
    cases b with
    | nil => rfl
    | cons x l => rw [List.nil_append, List.dropWhile_cons, if_neg (by rw [hb x l rfl]; decide)]
  | cons x a ih =>
    rw [List.cons_append, List.dropWhile_cons, if_pos (h x List.mem_cons_self)]
    exact ih fun y hy => h y (List.mem_cons_of_mem _ hy)

theorem mpqSetStr_num {a : Num} (h : Digits a.n ∧ ∀ d, a.d = some d → Digits d) (neg : Bool) :
    mpqSetStr ((if neg then ['-'] else []) ++ a.text) =
      some ((if neg then -1 else 1) * (dec a.n : ℤ), match a.d with | none => 1 | some d => (dec d : ℤ)) := by
  obtain ⟨c, l, hcl⟩ := List.exists_cons_of_ne_nil h.1.1
  have hc := h.1.2 c (by rw [hcl]; exact List.mem_cons_self)
  have hmatch : (match (if neg then ['-'] else []) ++ a.text with
    | '-' :: t => (true, t)
    | t => (false, t)) = (neg, a.text) := by
    cases neg with
    | true => rfl
    | false =>
      simp only [Bool.false_eq_true, if_false, List.nil_append]
      unfold Num.text
      rw [hcl, List.cons_append]
      split
      · next h => exact absurd (List.cons.inj h).1 (digit_ne hc).1
      · rfl
  have hstop : ∀ x l, (match a.d with | none => [] | some d => '/' :: d) = x :: l → x.isDigit = false := by
    intro x l hx
    cases hd : a.d with
    | none => rw [hd] at hx; simp at hx
    | some d => rw [hd] at hx; simp only [List.cons.injEq] at hx; rw [← hx.1]; decide
  have h1 : a.text.takeWhile Char.isDigit = a.n := takeWhile_stop h.1.2 hstop
  have h2 : a.text.dropWhile Char.isDigit = (match a.d with | none => [] | some d => '/' :: d) := dropWhile_stop h.1.2 hstop
  unfold mpqSetStr
  simp only [hmatch, h1, h2]
  rw [if_neg h.1.1]
  cases hd : a.d with
  | none => rfl
  | some d =>
    have := h.2 d hd
    have hall : d.all Char.isDigit = true := List.all_eq_true.mpr this.2
    simp only [hall, this.1, ne_eq, not_false_eq_true, and_self, if_true]
    rfl

theorem mpqSetStr_text {c : Char} {l : List Char} (h1 : c.isDigit = false) (h2 : c ≠ '-') (neg : Bool) :
    mpqSetStr ((if neg then ['-'] else []) ++ c :: l) = none := by
  have hmatch : (match (if neg then ['-'] else []) ++ c :: l with
    | '-' :: t => (true, t)
    | t => (false, t)) = (neg, c :: l) := by
    cases neg with
    | true => rfl
    | false =>
      simp only [Bool.false_eq_true, if_false, List.nil_append]
      split
      · next h => exact absurd (List.cons.inj h).1 h2
      · rfl
  unfold mpqSetStr
  simp only [hmatch, List.takeWhile_cons, h1, Bool.false_eq_true, if_false, if_true]

theorem firstRat_term {names : List (List Char)} (hnm : ∀ nm ∈ names, Name nm) {t : Mon} (ht : t.Ok names) {tl : List Char} (htl : IsTail tl) :
    firstRat (sign0 t ++ t.body names ++ tl) = (t.numer, t.denom) := by
  obtain ⟨q, rest, h1, h2, h3, h4, h5⟩ := body_first ht
  have hsg : IsSign (sign0 t) := by unfold sign0; split; exacts [.inr (.inr rfl), .inl rfl]
  unfold firstRat
  simp only
  rw [takeWhile_first hnm ht hsg htl h1 h2 h3]
  unfold sign0 Mon.numer Mon.denom
  cases hnum : t.num with
  | some a =>
    rw [h4 a hnum, mpqSetStr_num (ht.num a hnum)]
    rfl
  | none =>
    obtain ⟨f, hf, rfl⟩ := h5 hnum
    obtain ⟨⟨c, l, hcl, hd, _⟩, hch⟩ := fac_chars hnm (ht.vars f hf) (ht.exps f hf)
    have hc := (hch c (by rw [hcl]; exact List.mem_cons_self)).2.2.2.1
    rw [hcl, mpqSetStr_text hd hc]
    cases t.neg <;> simp [hc]

theorem innerRat_term {names : List (List Char)} (hnm : ∀ nm ∈ names, Name nm) {t : Mon} (ht : t.Ok names) {tl : List Char} (htl : IsTail tl) :
    innerRat (sign1 t ++ t.body names ++ tl) = (t.numer, t.denom) := by
  obtain ⟨q, rest, h1, h2, h3, h4, h5⟩ := body_first ht
  have hsg : IsSign (sign1 t) := by unfold sign1; split; exacts [.inr (.inr rfl), .inr (.inl rfl)]
  have hdrop : (sign1 t ++ q).drop 1 = (if false = true then ['-'] else []) ++ q := by unfold sign1; split <;> rfl
  have hhead : (sign1 t ++ t.body names ++ tl).head? = some '-' ↔ t.neg = true := by
    unfold sign1; cases t.neg <;> simp
  unfold innerRat
  simp only
  rw [takeWhile_first hnm ht hsg htl h1 h2 h3, hdrop]
  unfold Mon.numer Mon.denom
  cases hnum : t.num with
  | some a =>
    rw [h4 a hnum, mpqSetStr_num (ht.num a hnum)]
    by_cases hneg : t.neg = true
    · rw [if_pos (hhead.mpr hneg), if_pos hneg]; simp; rfl
    · rw [if_neg fun h => hneg (hhead.mp h), if_neg hneg]; simp; rfl
  | none =>
    obtain ⟨f, hf, rfl⟩ := h5 hnum
    obtain ⟨⟨c, l, hcl, hd, _⟩, hch⟩ := fac_chars hnm (ht.vars f hf) (ht.exps f hf)
    have hc := (hch c (by rw [hcl]; exact List.mem_cons_self)).2.2.2.1
    rw [hcl, mpqSetStr_text hd hc]
    by_cases hneg : t.neg = true
    · rw [if_pos (hhead.mpr hneg), if_pos hneg]; simp
    · rw [if_neg fun h => hneg (hhead.mp h), if_neg hneg]; simp

/-! ### A line -/

/-- The later terms of a line as chunks; the comma belongs to the last one. -/
theorem exists_chunks (names : List (List Char)) {tl : List Char} (htl : IsTail tl) (ts : List Mon) (hne : ts ≠ []) :
    ∃ cs, cs.flatten = (ts.flatMap fun t => (if t.neg then '-' else '+') :: t.body names) ++ tl ∧
      List.Forall₂ (fun c t => ∃ tl, IsTail tl ∧ c = sign1 t ++ t.body names ++ tl) cs ts := by
  have hs : ∀ t : Mon, sign1 t = [if t.neg then '-' else '+'] := fun t => by unfold sign1; split <;> rfl
  induction ts with
  | nil => exact absurd rfl hne
  | cons t ts ih =>
    cases ts with
    | nil =>
      refine ⟨[sign1 t ++ t.body names ++ tl], by simp [hs], .cons ⟨tl, htl, rfl⟩ .nil⟩
    | cons t' ts =>
      obtain ⟨cs, h1, h2⟩ := ih (by simp)
      refine ⟨(sign1 t ++ t.body names ++ []) :: cs, ?_, .cons ⟨[], .inl rfl, rfl⟩ h2⟩
      rw [List.flatten_cons, h1, List.flatMap_cons, hs]; simp

theorem tail_chars {tl : List Char} (h : IsTail tl) : ∀ c ∈ tl, ¬ Sign c := by
  rcases h with rfl | rfl
  · simp
  · intro c hc
    simp only [List.mem_singleton] at hc
    subst hc
    rintro (h | h) <;> revert h <;> decide

theorem body_not_sign {names : List (List Char)} (hnm : ∀ nm ∈ names, Name nm) {t : Mon} (ht : t.Ok names) :
    ∀ c ∈ t.body names, ¬ Sign c := by
  intro c hc
  have := body_chars hnm ht c hc
  rintro (rfl | rfl)
  · exact this.2.1 rfl
  · exact this.2.2.1 rfl

theorem count_body {names : List (List Char)} (hnm : ∀ nm ∈ names, Name nm) {t : Mon} (ht : t.Ok names) :
    (t.body names).count '+' = 0 ∧ (t.body names).count '-' = 0 :=
  ⟨List.count_eq_zero.mpr fun h => body_not_sign hnm ht _ h (.inl rfl), List.count_eq_zero.mpr fun h => body_not_sign hnm ht _ h (.inr rfl)⟩

theorem numTerms_cons (d : Char) (m : List Char) (h : d ≠ ' ') :
    numTerms (d :: m) = 1 - (if d = '-' then 1 else 0) + (d :: m).count '+' + (d :: m).count '-' := by
  have h1 : (d :: m).dropWhile (· = ' ') = d :: m := by rw [List.dropWhile_cons, if_neg (by simpa using h)]
  unfold numTerms
  simp only [h1, List.head?_cons, Option.some.injEq]

theorem numTerms_line {names : List (List Char)} (hnm : ∀ nm ∈ names, Name nm) {t : Mon} {ts : List Mon} (ht : ∀ u ∈ t :: ts, u.Ok names)
    {tl : List Char} (htl : IsTail tl) : numTerms (line names (t :: ts) ++ tl) = ts.length + 1 := by
  have hc0 := count_body hnm (ht t List.mem_cons_self)
  have htc : tl.count '+' = 0 ∧ tl.count '-' = 0 := by rcases htl with rfl | rfl <;> decide
  have hts : ((ts.flatMap fun t => (if t.neg then '-' else '+') :: t.body names).count '+') +
      ((ts.flatMap fun t => (if t.neg then '-' else '+') :: t.body names).count '-') = ts.length := by
    have h' : ∀ u ∈ ts, u.Ok names := fun u hu => ht u (List.mem_cons_of_mem _ hu)
    clear ht hc0
    induction ts with
    | nil => simp
    | cons u us ih =>
      have hu := count_body hnm (h' u List.mem_cons_self)
      have hi := ih fun u hu => h' u (List.mem_cons_of_mem _ hu)
      rw [List.flatMap_cons, List.count_append, List.count_append, List.length_cons]
      cases u.neg
      · simp only [Bool.false_eq_true, if_false, List.count_cons, hu.1, hu.2, beq_self_eq_true, if_true]
        rw [if_neg (by decide)]
        omega
      · simp only [if_true, List.count_cons, hu.1, hu.2, beq_self_eq_true]
        rw [if_neg (by decide)]
        omega
  obtain ⟨d, m, hb⟩ := List.exists_cons_of_ne_nil (body_ne_nil hnm (ht t List.mem_cons_self))
  have hd := body_chars hnm (ht t List.mem_cons_self) d (by rw [hb]; exact List.mem_cons_self)
  have hd2 : d ≠ ' ' := by rintro rfl; revert hd; decide
  simp only [line]
  by_cases hneg : t.neg = true
  · rw [if_pos hneg, List.append_assoc, List.append_assoc, List.singleton_append, numTerms_cons _ _ (by decide), if_pos rfl]
    simp only [List.count_cons, List.count_append, hc0.1, hc0.2, htc.1, htc.2, beq_self_eq_true, if_true]
    rw [if_neg (by decide)]
    omega
  · rw [if_neg hneg, List.nil_append, hb, List.cons_append, List.cons_append, numTerms_cons _ _ hd2, if_neg hd.2.2.1,
      ← List.cons_append, ← List.cons_append, ← hb]
    simp only [List.count_append, hc0.1, hc0.2, htc.1, htc.2]
    omega

/-- Reading a line of the grammar, possibly followed by a comma. -/
theorem parseTerms_line {α : Type} {names : List (List Char)} (hnm : ∀ nm ∈ names, Name nm) (hnd : names.Nodup) {first inner : List Char → α}
    {F G : Mon → α} {t : Mon} {ts : List Mon} (ht : ∀ u ∈ t :: ts, u.Ok names) (hfit : ∀ u ∈ t :: ts, Fits names u)
    (hF : ∀ tl, IsTail tl → first (sign0 t ++ t.body names ++ tl) = F t)
    (hG : ∀ u ∈ ts, ∀ tl, IsTail tl → inner (sign1 u ++ u.body names ++ tl) = G u) {tl : List Char} (htl : IsTail tl) :
    parseTerms names first inner (line names (t :: ts) ++ tl) (numTerms (line names (t :: ts) ++ tl)) =
      some ((F t, expoRow names.length t) :: ts.map fun u => (G u, expoRow names.length u)) := by
  rw [numTerms_line hnm ht htl]
  have hsg0 : IsSign (sign0 t) := by unfold sign0; split; exacts [.inr (.inr rfl), .inl rfl]
  have htlen : tl.length ≤ 1 := by rcases htl with rfl | rfl <;> simp
  obtain ⟨tl0, cs, hline, htl0, hcs⟩ : ∃ tl0 cs, line names (t :: ts) ++ tl = (sign0 t ++ t.body names ++ tl0) ++ List.flatten cs ∧
      IsTail tl0 ∧ List.Forall₂ (fun c t => ∃ tl, IsTail tl ∧ c = sign1 t ++ t.body names ++ tl) cs ts := by
    cases ts with
    | nil => exact ⟨tl, [], by unfold line sign0; simp, htl, .nil⟩
    | cons u us =>
      obtain ⟨cs, h1, h2⟩ := exists_chunks names htl (u :: us) (by simp)
      exact ⟨[], cs, by rw [h1]; unfold line sign0; simp, .inl rfl, h2⟩
  have htlen0 : tl0.length ≤ 1 := by rcases htl0 with rfl | rfl <;> simp
  have ht0 := ht t List.mem_cons_self
  obtain ⟨d, m, hb⟩ := List.exists_cons_of_ne_nil (body_ne_nil hnm ht0)
  have hdm := body_not_sign hnm ht0
  have hb0 := body_chars hnm ht0 d (by rw [hb]; exact List.mem_cons_self)
  have hch : Chunk (sign0 t ++ t.body names ++ tl0) := by
    unfold sign0
    split
    · refine ⟨'-', t.body names ++ tl0, by simp, fun x hx => ?_⟩
      rw [List.mem_append] at hx
      exact hx.elim (hdm x) (tail_chars htl0 x)
    · refine ⟨d, m ++ tl0, by simp [hb], fun x hx => ?_⟩
      rw [List.mem_append] at hx
      exact hx.elim (fun h => hdm x (by rw [hb]; exact List.mem_cons_of_mem _ h)) (tail_chars htl0 x)
  have hplus : (sign0 t ++ t.body names ++ tl0).head? ≠ some '+' := by
    unfold sign0
    split
    · simp
    · rw [hb]; simpa using hb0.2.1
  have hfit0 := hfit t List.mem_cons_self
  unfold Fits at hfit0
  have hsize : termSize = 50000 := rfl
  have hs0 : (sign0 t).length ≤ 1 := by unfold sign0; split <;> simp
  have hs1 : ∀ u : Mon, (sign1 u).length = 1 := fun u => by unfold sign1; split <;> rfl
  rw [hline, parseTerms_chunks names first inner hch hplus (by simp only [List.length_append]; omega) ?_
    (storeExponent_term hnm hnd ht0 hsg0 htl0) (es := ts.map (expoRow names.length)) ?_ (by rw [hcs.length_eq]), hF tl0 htl0]
  · congr 2
    clear hline
    induction hcs with
    | nil => rfl
    | @cons c u cs us hc _ ih =>
      obtain ⟨tl1, h1, rfl⟩ := hc
      rw [List.map_cons, List.zip_cons_cons, List.map_cons, List.map_cons]
      simp only
      rw [hG u List.mem_cons_self tl1 h1, ih]
      · exact fun v hv => ht v (by rcases List.mem_cons.mp hv with h | h; exacts [h ▸ List.mem_cons_self, List.mem_cons_of_mem _ (List.mem_cons_of_mem _ h)])
      · exact fun v hv => hfit v (by rcases List.mem_cons.mp hv with h | h; exacts [h ▸ List.mem_cons_self, List.mem_cons_of_mem _ (List.mem_cons_of_mem _ h)])
      · exact fun v hv => hG v (List.mem_cons_of_mem _ hv)
  · intro c hc
    obtain ⟨u, hu, tl1, h1, rfl⟩ : ∃ u ∈ ts, ∃ tl, IsTail tl ∧ c = sign1 u ++ u.body names ++ tl := by
      clear hline hG ht hfit
      induction hcs with
      | nil => simp at hc
      | @cons c' u cs us hcu _ ih =>
        rcases List.mem_cons.mp hc with rfl | h
        · exact ⟨u, List.mem_cons_self, hcu⟩
        · obtain ⟨v, hv, hh⟩ := ih h
          exact ⟨v, List.mem_cons_of_mem _ hv, hh⟩
    have hu' := ht u (List.mem_cons_of_mem _ hu)
    have hf' := hfit u (List.mem_cons_of_mem _ hu)
    unfold Fits at hf'
    have htl1 : tl1.length ≤ 1 := by rcases h1 with rfl | rfl <;> simp
    refine ⟨if u.neg then '-' else '+', u.body names ++ tl1, by unfold sign1; split <;> simp, by split; exacts [.inr rfl, .inl rfl],
      fun x hx => ?_, by simp only [List.length_append, hs1]; omega⟩
    rw [List.mem_append] at hx
    exact hx.elim (body_not_sign hnm hu' x) (tail_chars h1 x)
  · clear hline hG hfit
    rw [List.forall₂_map_right_iff]
    induction hcs with
    | nil => exact .nil
    | @cons c u cs us hcu _ ih =>
      obtain ⟨tl1, h1, rfl⟩ := hcu
      refine .cons (storeExponent_term hnm hnd (ht u (List.mem_cons_of_mem _ List.mem_cons_self))
        (by unfold sign1; split; exacts [.inr (.inr rfl), .inr (.inl rfl)]) h1) (ih fun v hv => ht v ?_)
      rcases List.mem_cons.mp hv with h | h
      exacts [h ▸ List.mem_cons_self, List.mem_cons_of_mem _ (List.mem_cons_of_mem _ h)]

end Verif.Parse
