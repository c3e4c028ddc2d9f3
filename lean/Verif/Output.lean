import Verif.Spec.Output
import Verif.PrintQq
import Verif.RealPoints
import Verif.VarOrder
import Mathlib.Data.List.Forall2
import Mathlib.Tactic.NormNum

/-!
Printing of the solutions.
Source: src/msolve/msolve.c 81-95, 122-228, 2591-2652, 3447-3510, src/fglm/fglm_core.c 102-116.
-/
namespace Verif.Output
open Verif.Spec.Output Verif.PrintQq Verif.RealPoints Verif.VarOrder

/-! ### The code -/

/-- Entries with a text between them: the loops `for (i = 0; i < n - 1; i++)` followed by the last entry. -/
def commas (sep : List Char) : List (List Char) → List Char
  | [] => []
  | [a] => a
  | a :: l => a ++ sep ++ commas sep l

/-- `mpz_upoly_out_str`, msolve.c 81-95; the list of the coefficients has length `pol->length`. -/
def upolyText (cs : List ℤ) : List Char :=
  '[' :: (if 0 < cs.length then mpzText (cs.length - 1) ++ [',', ' '] ++ '[' :: commas [',', ' '] (cs.map mpzText) ++ [']']
    else "-1, [0]".toList) ++ [']']

/-- `display_nmod_poly`, fglm_core.c 102-116. -/
def nmodText (cs : List ℕ) : List Char :=
  '[' :: mpzText (cs.length - 1) ++ [',', '\n'] ++
    (if cs.length ≠ 0 then '[' :: commas [',', ' '] (cs.map fun c : ℕ => mpzText c) ++ [']'] else "[0]".toList) ++ [']']

/-- The linear form, msolve.c 141-173, without the `,\n` behind it; the values are those of `printedForm`. -/
def formText (g : Gens) (nums : List ℤ) (den : ℤ) : List Char :=
  '[' :: (if g.rand then commas [','] (nums.map fun a => mpzText a ++ if g.fc = 0 then '/' :: mpzText den else [])
    else if 0 < g.lfbc then commas [','] (nums.map mpzText) else commas [',', ' '] (nums.map mpzText)) ++ [']']

/-- `mpz_param_t` and `param_t`: the coordinates over the rationals are polynomials with the denominators `cfs`; `none` is `NULL`.
The list `mcoords` has `mod_param->nvars - 1` elements. -/
structure ParamData where
  elim : List ℤ
  denom : List ℤ
  coords : Option (List (List ℤ × ℤ))
  melim : List ℕ
  mdenom : List ℕ
  mcoords : Option (List (List ℕ))

/-- The coordinates, msolve.c 188-216: the last one is followed by a line break only. -/
def coordsText (l : List (List Char)) : List Char := if l = [] then [] else commas [',', '\n'] l ++ ['\n']

/-- The polynomials, msolve.c 175-218, with `nvars - 1` coordinates over the rationals. -/
def ParamData.text (fc nvars : ℕ) (D : ParamData) : List Char :=
  (if fc ≠ 0 then nmodText D.melim else upolyText D.elim) ++ [',', '\n'] ++
  (if fc ≠ 0 then nmodText D.mdenom else upolyText D.denom) ++ [',', '\n'] ++ '[' :: '\n' ::
  (if fc ≠ 0 then coordsText ((D.mcoords.getD []).map fun q => '[' :: nmodText q ++ [']'])
    else coordsText (((D.coords.getD []).take (nvars - 1)).map fun q => '[' :: upolyText q.1 ++ [',', '\n'] ++ mpzText q.2 ++ [']'])) ++ [']']

/-- The arrays have as many elements as are read, with `param->nvars = gens->nvars` (msolve.c 3463). -/
def ParamData.fits (g : Gens) (D : ParamData) : Prop :=
  0 < g.nvars ∧ g.nvars ≤ g.vnames.length ∧ (g.fc = 0 → ∀ l, D.coords = some l → g.nvars - 1 ≤ l.length)

instance (g : Gens) (D : ParamData) : Decidable (D.fits g) := by
  unfold ParamData.fits
  cases D.coords with
  | none => exact decidable_of_iff (0 < g.nvars ∧ g.nvars ≤ g.vnames.length) (by simp)
  | some l => exact decidable_of_iff (0 < g.nvars ∧ g.nvars ≤ g.vnames.length ∧ (g.fc = 0 → g.nvars - 1 ≤ l.length)) (by simp)

/-- `mpz_param_out_str_maple`, msolve.c 122-228; `none`: the linear form is not defined or arrays are too short. -/
def paramText (g : Gens) (dquot : ℤ) (D : ParamData) : Option (List Char) :=
  if D.fits g then (printedForm g).map fun q =>
    '[' :: mpzText g.fc ++ [',', ' ', '\n'] ++ mpzText g.nvars ++ [',', ' ', '\n'] ++ mpzText dquot ++ [',', ' ', '\n'] ++
    ('[' :: commas [',', ' '] ((g.vnames.take g.nvars).map fun s => '\'' :: s.toList ++ ['\'']) ++ [']']) ++ [',', '\n'] ++
    formText g q.1 q.2 ++ [',', '\n'] ++ "[1,\n[".toList ++ D.text g.fc g.nvars ++ [']', ']', ']']
  else none

/-- `display_output`, msolve.c 3447-3510: the text that is written. -/
def displayOutput (g : Gens) (dim dquot : ℤ) (getParam : ℕ) (D : ParamData) (pts : List (List Box)) : Option (List Char) :=
  if dquot = 0 then some "[-1]:\n".toList
  else
    (if dim = 0 ∧ 0 ≤ dquot then
      (if 1 ≤ getParam ∨ g.fc ≠ 0 then paramText g dquot D else some []).map fun t =>
        "[0, ".toList ++ t ++
          (if getParam ≤ 1 ∧ g.fc = 0 then (if getParam ≠ 0 then [','] else []) ++ (showPoints pts).toList else []) ++ "]:\n".toList
     else some []).map fun t =>
    t ++ if 0 < dim then "[1, ".toList ++ mpzText g.nvars ++ ", -1, []]:\n".toList else []

/-! ### The reader -/

/-- Reading `w` at the beginning of an entry gives the entries `ts` and then `t`, which is not closed. -/
def Items (w : List Char) (ts : List Tree) (t : Tree) : Prop :=
  ∀ m, m = .first ∨ m = .entry → ∀ f o, ∃ m', w.foldlM St.step ⟨m, f, o⟩ = some ⟨m', ts.reverse ++ f, o⟩ ∧ m'.value = some t

theorem foldlM_append' {w v : List Char} {s s' : St} (h : w.foldlM St.step s = some s') :
    (w ++ v).foldlM St.step s = v.foldlM St.step s' := by
  rw [List.foldlM_append, h]; rfl

def White (sp : List Char) : Prop := ∀ c ∈ sp, c = ' ' ∨ c = '\n'

theorem step_white {c : Char} (hc : c = ' ' ∨ c = '\n') {m m' : Mode} (hm : m.space = some m') (f : List Tree) (o : List (List Tree)) :
    St.step ⟨m, f, o⟩ c = some ⟨m', f, o⟩ := by
  rcases hc with rfl | rfl <;> cases m <;> simp_all [St.step, Mode.space]

theorem white_open {sp : List Char} (h : White sp) {m : Mode} (hm : m = .first ∨ m = .entry) (f : List Tree) (o : List (List Tree)) :
    sp.foldlM St.step ⟨m, f, o⟩ = some ⟨m, f, o⟩ := by
  induction sp with
  | nil => rfl
  | cons c sp ih =>
    rw [List.foldlM_cons, step_white (h c List.mem_cons_self) (m' := m) (by rcases hm with rfl | rfl <;> rfl)]
    exact ih fun d hd => h d (List.mem_cons_of_mem _ hd)

theorem space_value {m : Mode} {t : Tree} (h : m.value = some t) : ∃ m', m.space = some m' ∧ m'.value = some t := by
  cases m <;> simp_all [Mode.value, Mode.space]

theorem white_value {sp : List Char} (h : White sp) {m : Mode} {t : Tree} (hm : m.value = some t) (f : List Tree) (o : List (List Tree)) :
    ∃ m', sp.foldlM St.step ⟨m, f, o⟩ = some ⟨m', f, o⟩ ∧ m'.value = some t := by
  induction sp generalizing m with
  | nil => exact ⟨m, rfl, hm⟩
  | cons c sp ih =>
    obtain ⟨m1, h1, h2⟩ := space_value hm
    rw [List.foldlM_cons, step_white (h c List.mem_cons_self) h1]
    exact ih (fun d hd => h d (List.mem_cons_of_mem _ hd)) h2

theorem step_comma {m : Mode} {t : Tree} (h : m.value = some t) (f : List Tree) (o : List (List Tree)) :
    St.step ⟨m, f, o⟩ ',' = some ⟨.entry, t :: f, o⟩ := by
  cases m <;> simp_all [St.step, Mode.value]

theorem step_close {m : Mode} {t : Tree} (h : m.value = some t) (f g : List Tree) (o : List (List Tree)) :
    St.step ⟨m, f, g :: o⟩ ']' = some ⟨.done (.list (f.reverse ++ [t])), g, o⟩ := by
  cases m <;> simp_all [St.step, Mode.value, St.close]

theorem step_open {m : Mode} (hm : m = .first ∨ m = .entry) (f : List Tree) (o : List (List Tree)) :
    St.step ⟨m, f, o⟩ '[' = some ⟨.first, [], f :: o⟩ := by
  rcases hm with rfl | rfl <;> simp [St.step]

theorem Items.append {w v : List Char} {ts us : List Tree} {t u : Tree} (hw : Items w ts t) (hv : Items v us u) {sp : List Char}
    (hsp : White sp) : Items (w ++ ',' :: sp ++ v) (ts ++ t :: us) u := by
  intro m hm f o
  obtain ⟨m1, h1, h2⟩ := hw m hm f o
  obtain ⟨m2, h3, h4⟩ := hv .entry (.inr rfl) (t :: (ts.reverse ++ f)) o
  refine ⟨m2, ?_, h4⟩
  rw [List.append_assoc, foldlM_append' h1, List.cons_append, List.foldlM_cons, step_comma h2, Option.bind_eq_bind, Option.bind_some,
    foldlM_append' (white_open hsp (.inr rfl) _ _), h3]
  simp

theorem Items.before {w : List Char} {ts : List Tree} {t : Tree} (hw : Items w ts t) {sp : List Char} (hsp : White sp) :
    Items (sp ++ w) ts t := by
  intro m hm f o
  rw [foldlM_append' (white_open hsp hm _ _)]
  exact hw m hm f o

theorem Items.behind {w : List Char} {ts : List Tree} {t : Tree} (hw : Items w ts t) {sp : List Char} (hsp : White sp) :
    Items (w ++ sp) ts t := by
  intro m hm f o
  obtain ⟨m1, h1, h2⟩ := hw m hm f o
  rw [foldlM_append' h1]
  exact white_value hsp h2 _ _

theorem Items.list {w : List Char} {ts : List Tree} {t : Tree} (hw : Items w ts t) : Items ('[' :: w ++ [']']) [] (.list (ts ++ [t])) := by
  intro m hm f o
  obtain ⟨m1, h1, h2⟩ := hw .first (.inl rfl) [] (f :: o)
  refine ⟨.done (.list (ts ++ [t])), ?_, rfl⟩
  rw [List.cons_append, List.foldlM_cons, step_open hm, Option.bind_eq_bind, Option.bind_some, foldlM_append' h1, List.foldlM_cons,
    step_close h2]
  simp

theorem items_empty {sp : List Char} (hsp : White sp) : Items ('[' :: sp ++ [']']) [] (.list []) := by
  intro m hm f o
  refine ⟨.done (.list []), ?_, rfl⟩
  rw [List.cons_append, List.foldlM_cons, step_open hm, Option.bind_eq_bind, Option.bind_some,
    foldlM_append' (white_open hsp (.inl rfl) _ _)]
  simp [St.step, St.close]

theorem items_commas {α : Type*} (g : α → List Char) (T : α → Tree) {sp : List Char} (hsp : White sp) {l : List α}
    (h : ∀ a ∈ l, Items (g a) [] (T a)) (hne : l ≠ []) :
    ∃ ts t, Items (commas (',' :: sp) (l.map g)) ts t ∧ ts ++ [t] = l.map T := by
  induction l with
  | nil => exact absurd rfl hne
  | cons a l ih =>
    cases l with
    | nil => exact ⟨[], T a, h a List.mem_cons_self, rfl⟩
    | cons b l =>
      obtain ⟨ts, t, h1, h2⟩ := ih (fun c hc => h c (List.mem_cons_of_mem _ hc)) (by simp)
      refine ⟨T a :: ts, t, ?_, by rw [List.cons_append, h2]; rfl⟩
      have := (h a List.mem_cons_self).append h1 hsp
      simpa [commas] using this

/-- A list of entries. -/
theorem items_list {α : Type*} (g : α → List Char) (T : α → Tree) {sp s1 s2 : List Char} (hsp : White sp) (h1 : White s1) (h2 : White s2)
    {l : List α} (h : ∀ a ∈ l, Items (g a) [] (T a)) :
    Items ('[' :: (s1 ++ commas (',' :: sp) (l.map g) ++ s2) ++ [']']) [] (.list (l.map T)) := by
  by_cases hne : l = []
  · subst hne
    have : White (s1 ++ s2) := fun c hc => (List.mem_append.mp hc).elim (h1 c) (h2 c)
    simpa [commas] using items_empty this
  · obtain ⟨ts, t, h3, h4⟩ := items_commas g T hsp h hne
    rw [← h4]
    exact ((h3.before h1).behind h2).list

/-! ### Numbers and names -/

theorem isDigit_ne {c : Char} (h : c.isDigit = true) :
    c ≠ ',' ∧ c ≠ ']' ∧ c ≠ '[' ∧ c ≠ '\'' ∧ c ≠ '-' ∧ c ≠ '/' ∧ c ≠ '^' ∧ c ≠ ' ' ∧ c ≠ '\n' := by
  refine ⟨?_, ?_, ?_, ?_, ?_, ?_, ?_, ?_, ?_⟩ <;> (rintro rfl; revert h; decide)

theorem step_digit {c : Char} (h : c.isDigit = true) {m m' : Mode} (hn : ∀ s, m ≠ .name s) (hm : m.digit (digit c) = some m') (f : List Tree)
    (o : List (List Tree)) : St.step ⟨m, f, o⟩ c = some ⟨m', f, o⟩ := by
  obtain ⟨h1, h2, h3, h4, h5, h6, h7, h8, h9⟩ := isDigit_ne h
  cases m <;> simp_all [St.step]

/-- A family of states in which digits are read. -/
theorem digits_run {M : ℕ → Mode} (hM : ∀ k d, (M k).digit d = some (M (10 * k + d))) (hn : ∀ k s, M k ≠ .name s) {ds : List Char}
    (h : ∀ c ∈ ds, c.isDigit = true) (k : ℕ) (f : List Tree) (o : List (List Tree)) :
    ds.foldlM St.step ⟨M k, f, o⟩ = some ⟨M (Nat.ofDigitChars 10 ds k), f, o⟩ := by
  induction ds generalizing k with
  | nil => simp [Nat.ofDigitChars]
  | cons c ds ih =>
    rw [List.foldlM_cons, step_digit (h c List.mem_cons_self) (hn k) (hM k _), Option.bind_eq_bind, Option.bind_some,
      ih fun d hd => h d (List.mem_cons_of_mem _ hd)]
    rfl

/-- A number behind a state that expects one. -/
theorem number_run {m : Mode} {M : ℕ → Mode} (hm : ∀ d, m.digit d = some (M d)) (hn' : ∀ s, m ≠ .name s)
    (hM : ∀ k d, (M k).digit d = some (M (10 * k + d))) (hn : ∀ k s, M k ≠ .name s) (n : ℕ) (f : List Tree) (o : List (List Tree)) :
    (Nat.toDigits 10 n).foldlM St.step ⟨m, f, o⟩ = some ⟨M n, f, o⟩ := by
  have h1 := (Parse.toDigits_digits n).1
  have h2 := (Parse.toDigits_digits n).2
  obtain ⟨c, ds, hc⟩ := List.exists_cons_of_ne_nil h1.1
  rw [hc] at h1 h2 ⊢
  rw [List.foldlM_cons, step_digit (h1.2 c List.mem_cons_self) hn' (hm _), Option.bind_eq_bind, Option.bind_some,
    digits_run hM hn fun d hd => h1.2 d (List.mem_cons_of_mem _ hd)]
  rw [← h2]
  simp [Spec.Text.dec, Nat.ofDigitChars, digit]

/-- A number at the beginning of an entry. -/
theorem mpz_run {m : Mode} (hm : m = .first ∨ m = .entry) (z : ℤ) (f : List Tree) (o : List (List Tree)) :
    ∃ neg n, (mpzText z).foldlM St.step ⟨m, f, o⟩ = some ⟨.int neg n, f, o⟩ ∧ signed neg n = z := by
  unfold mpzText
  by_cases h : z < 0
  · refine ⟨true, z.natAbs, ?_, by simp only [signed, if_true]; omega⟩
    rw [if_pos h]
    have hs : St.step ⟨m, f, o⟩ '-' = some ⟨.minus, f, o⟩ := by rcases hm with rfl | rfl <;> simp [St.step]
    rw [List.singleton_append, List.foldlM_cons, hs]
    exact number_run (m := .minus) (M := .int true) (fun _ => rfl) (by simp) (fun _ _ => rfl) (by simp) _ _ _
  · refine ⟨false, z.natAbs, ?_, by simp [signed]; omega⟩
    rw [if_neg h, List.nil_append]
    rcases hm with rfl | rfl <;>
      exact number_run (M := .int false) (fun _ => rfl) (by simp) (fun _ _ => rfl) (by simp) _ _ _

theorem items_mpz (z : ℤ) : Items (mpzText z) [] (.num z) := by
  intro m hm f o
  obtain ⟨neg, n, h1, h2⟩ := mpz_run hm z f o
  exact ⟨_, h1, by rw [← h2]; rfl⟩

theorem mpzText_nat (n : ℕ) : mpzText n = Nat.toDigits 10 n := by
  unfold mpzText
  rw [if_neg (by omega)]; rfl

/-- A fraction. -/
theorem items_div (z : ℤ) {d : ℤ} (hd : 0 ≤ d) : Items (mpzText z ++ '/' :: mpzText d) [] (.num (z / d)) := by
  intro m hm f o
  obtain ⟨neg, n, h1, h2⟩ := mpz_run hm z f o
  obtain ⟨k, rfl⟩ := Int.eq_ofNat_of_zero_le hd
  refine ⟨.den z k, ?_, by simp [Mode.value]⟩
  have hs : St.step ⟨.int neg n, f, o⟩ '/' = some ⟨.slash z, f, o⟩ := by simp [St.step, h2]
  rw [foldlM_append' h1, List.foldlM_cons, hs, mpzText_nat]
  exact number_run (m := .slash z) (M := .den z) (fun _ => rfl) (by simp) (fun _ _ => rfl) (by simp) _ _ _

theorem toString_mpz (z : ℤ) : (toString z).toList = mpzText z := by
  cases z with
  | ofNat n =>
    rw [Int.ofNat_eq_natCast, mpzText_nat]
    change (Nat.repr n).toList = _
    simp [Nat.repr]
  | negSucc n =>
    unfold mpzText
    rw [if_pos (Int.negSucc_lt_zero n)]
    change ("-" ++ Nat.repr (n + 1)).toList = _
    simp [Nat.repr]

/-- A bound. -/
theorem items_bound (v : ℤ) (k : ℕ) : Items (showBound v k).toList [] (.num (v / 2 ^ k)) := by
  unfold showBound
  rw [String.toList_append, toString_mpz]
  by_cases h : k ≠ 0 ∧ v ≠ 0
  · rw [if_pos h, String.toList_append]
    intro m hm f o
    obtain ⟨neg, n, h1, h2⟩ := mpz_run hm v f o
    rw [foldlM_append' h1]
    have hs : (" / 2".toList).foldlM St.step ⟨.int neg n, f, o⟩ = some ⟨.den v 2, f, o⟩ := by
      have e : " / 2".toList = [' ', '/', ' ', '2'] := rfl
      rw [e]
      have a1 : St.step ⟨.int neg n, f, o⟩ ' ' = some ⟨.rat v, f, o⟩ := step_white (.inl rfl) (by simp [Mode.space, h2]) _ _
      have a2 : St.step ⟨.rat v, f, o⟩ '/' = some ⟨.slash v, f, o⟩ := by simp [St.step]
      have a3 : St.step ⟨.slash v, f, o⟩ ' ' = some ⟨.slash v, f, o⟩ := step_white (.inl rfl) rfl _ _
      have a4 : St.step ⟨.slash v, f, o⟩ '2' = some ⟨.den v 2, f, o⟩ := step_digit (by decide) (by simp) rfl _ _
      simp only [List.foldlM_cons, a1, a2, a3, a4, Option.bind_eq_bind, Option.bind_some, List.foldlM_nil]
      rfl
    rw [foldlM_append' hs]
    by_cases hk : 1 < k
    · rw [if_pos hk, String.toList_append]
      have a1 : St.step ⟨.den v 2, f, o⟩ '^' = some ⟨.caret v 2, f, o⟩ := by simp [St.step]
      refine ⟨.pow v 2 k, ?_, by simp [Mode.value]⟩
      have e : (toString k).toList = Nat.toDigits 10 k := by
        change (Nat.repr k).toList = _
        simp [Nat.repr]
      rw [e, show "^".toList = ['^'] from rfl, List.singleton_append, List.foldlM_cons, a1]
      exact number_run (m := .caret v 2) (M := .pow v 2) (fun _ => rfl) (by simp) (fun _ _ => rfl) (by simp) _ _ _
    · rw [if_neg hk]
      have : k = 1 := by omega
      subst this
      exact ⟨.den v 2, rfl, by simp [Mode.value]⟩
  · rw [if_neg h]
    have e : ((v : ℚ) / 2 ^ k) = v := by
      by_cases hk : k = 0
      · simp [hk]
      · have : v = 0 := by by_contra h'; exact h ⟨hk, h'⟩
        simp [this]
    rw [e, String.toList_empty, List.append_nil]
    exact items_mpz v

theorem name_run {s : List Char} (h : '\'' ∉ s) (acc : List Char) (f : List Tree) (o : List (List Tree)) :
    s.foldlM St.step ⟨.name acc, f, o⟩ = some ⟨.name (s.reverse ++ acc), f, o⟩ := by
  induction s generalizing acc with
  | nil => rfl
  | cons c s ih =>
    have hc : c ≠ '\'' := by rintro rfl; exact h List.mem_cons_self
    have : St.step ⟨.name acc, f, o⟩ c = some ⟨.name (c :: acc), f, o⟩ := by simp [St.step, hc]
    rw [List.foldlM_cons, this, Option.bind_eq_bind, Option.bind_some, ih fun hh => h (List.mem_cons_of_mem _ hh)]
    simp

theorem items_name {s : List Char} (h : '\'' ∉ s) : Items ('\'' :: s ++ ['\'']) [] (.str s) := by
  intro m hm f o
  have a1 : St.step ⟨m, f, o⟩ '\'' = some ⟨.name [], f, o⟩ := by rcases hm with rfl | rfl <;> simp [St.step]
  refine ⟨.done (.str s), ?_, rfl⟩
  rw [List.cons_append, List.foldlM_cons, a1, Option.bind_eq_bind, Option.bind_some, foldlM_append' (name_run h _ _ _)]
  simp [St.step]

/-! ### The parts of the output -/

theorem mpzText_one : mpzText 1 = ['1'] := by decide +kernel
theorem mpzText_neg : mpzText (-1) = ['-', '1'] := by decide +kernel
theorem mpzText_zero : mpzText 0 = ['0'] := by decide +kernel

theorem white_sp : White [' '] := by simp [White]
theorem white_nl : White ['\n'] := by simp [White]
theorem white_spnl : White [' ', '\n'] := by simp [White]
theorem white_nil : White [] := by simp [White]

theorem items_ints (l : List ℤ) : Items ('[' :: commas [',', ' '] (l.map mpzText) ++ [']']) [] (ints l) := by
  have := items_list mpzText (fun a : ℤ => .num (a : ℚ)) white_sp white_nil white_nil (l := l) fun a _ => items_mpz a
  simpa [ints] using this

theorem items_pair {w v : List Char} {t u : Tree} (hw : Items w [] t) (hv : Items v [] u) {sp : List Char} (hsp : White sp) :
    Items ('[' :: (w ++ ',' :: sp ++ v) ++ [']']) [] (.list [t, u]) := (hw.append hv hsp).list

theorem items_upoly (cs : List ℤ) : Items (upolyText cs) [] (poly cs) := by
  unfold upolyText poly
  by_cases h : cs = []
  · subst h
    have h1 := items_pair (items_mpz (-1)) (items_ints [0]) white_sp
    simpa [commas, mpzText_neg, mpzText_zero] using h1
  · rw [if_pos (List.length_pos_of_ne_nil h), if_neg h]
    have h1 := items_pair (items_mpz (cs.length - 1)) (items_ints cs) white_sp
    simpa using h1

theorem items_nmod (cs : List ℕ) : Items (nmodText cs) [] (poly (cs.map fun c : ℕ => (c : ℤ))) := by
  unfold nmodText poly
  by_cases h : cs = []
  · subst h
    have h1 := items_pair (items_mpz (-1)) (items_ints [0]) white_nl
    simpa [commas, mpzText_neg, mpzText_zero] using h1
  · rw [if_pos (List.length_pos_of_ne_nil h).ne', if_neg (by simpa using h)]
    have h1 := items_pair (items_mpz (cs.length - 1)) (items_ints (cs.map fun c : ℕ => (c : ℤ))) white_nl
    simpa [List.map_map, Function.comp_def] using h1

theorem items_coords {α : Type*} (g : α → List Char) (T : α → Tree) {l : List α} (h : ∀ a ∈ l, Items (g a) [] (T a)) :
    Items ('[' :: '\n' :: coordsText (l.map g) ++ [']']) [] (.list (l.map T)) := by
  unfold coordsText
  by_cases hne : l = []
  · subst hne
    simpa using items_empty white_nl
  · rw [if_neg (by simpa using hne)]
    have := items_list g T white_nl white_nl white_nl h
    simpa using this

theorem items_box (b : Box) : Items (showBox b).toList [] (box (b.vdo / 2 ^ b.kdo) (b.vup / 2 ^ b.kup)) := by
  have := items_pair (items_bound b.vdo b.kdo) (items_bound b.vup b.kup) white_sp
  simpa [showBox, box] using this

theorem showBoxes_commas : ∀ l : List Box, (showBoxes l).toList = commas [',', ' '] (l.map fun b => (showBox b).toList)
  | [] => rfl
  | [b] => rfl
  | b :: c :: l => by
    have := showBoxes_commas (c :: l)
    simp only [showBoxes, List.map_cons, commas, String.toList_append] at this ⊢
    rw [this]; rfl

theorem items_point (bs : List Box) :
    Items (showPoint bs).toList [] (.list (bs.map fun b => box (b.vdo / 2 ^ b.kdo) (b.vup / 2 ^ b.kup))) := by
  have := items_list (fun b => (showBox b).toList) _ white_sp white_nil white_nil (l := bs) fun b _ => items_box b
  simpa [showPoint, showBoxes_commas] using this

theorem showList_commas : ∀ l : List (List Box), (showList l).toList = commas [',', ' '] (l.map fun b => (showPoint b).toList)
  | [] => rfl
  | [b] => rfl
  | b :: c :: l => by
    have := showList_commas (c :: l)
    simp only [showList, List.map_cons, commas, String.toList_append] at this ⊢
    rw [this]; rfl

theorem items_points (l : List (List Box)) :
    Items (showPoints l).toList [] (points (l.map fun bs => bs.map fun b => ((b.vdo / 2 ^ b.kdo : ℚ), (b.vup / 2 ^ b.kup : ℚ)))) := by
  have h1 := items_list (fun b => (showPoint b).toList) _ white_sp white_nil white_nil (l := l) fun b _ => items_point b
  have h2 := ((items_mpz 1).append (h1.behind white_nl) white_nl).list
  simpa [showPoints, showList_commas, points, mpzText_one, List.map_map, Function.comp_def] using h2

theorem items_form (g : Gens) (nums : List ℤ) {den : ℤ} (hd : 0 < den) (h1 : ¬ (g.rand = true ∧ g.fc = 0) → den = 1) :
    Items (formText g nums den) [] (.list (nums.map fun a : ℤ => .num ((a : ℚ) / den))) := by
  unfold formText
  by_cases hr : g.rand = true ∧ g.fc = 0
  · rw [if_pos hr.1]
    simp only [hr.2, if_true]
    have := items_list (fun a => mpzText a ++ '/' :: mpzText den) (fun a : ℤ => .num ((a : ℚ) / den)) white_nil white_nil white_nil
      (l := nums) fun a _ => items_div a hd.le
    simpa using this
  · have hden := h1 hr
    subst hden
    have h2 := items_list mpzText (fun a : ℤ => .num (a : ℚ)) white_nil white_nil white_nil (l := nums) fun a _ => items_mpz a
    have h3 := items_ints nums
    have e : (fun a : ℤ => Tree.num ((a : ℚ) / ((1 : ℤ) : ℚ))) = fun a : ℤ => .num (a : ℚ) := by funext a; simp
    rw [e]
    by_cases hr' : g.rand = true
    · have hf : g.fc ≠ 0 := fun h => hr ⟨hr', h⟩
      rw [if_pos hr']
      simpa [hf] using h2
    · rw [if_neg hr']
      split
      · simpa using h2
      · simpa [ints] using h3

/-- The value of the data. -/
def ParamData.tree (fc nvars : ℕ) (D : ParamData) : List Tree :=
  if fc ≠ 0 then [poly (D.melim.map fun c : ℕ => (c : ℤ)), poly (D.mdenom.map fun c : ℕ => (c : ℤ)),
    .list ((D.mcoords.getD []).map fun q => .list [poly (q.map fun c : ℕ => (c : ℤ))])]
  else [poly D.elim, poly D.denom, .list (((D.coords.getD []).take (nvars - 1)).map fun q => .list [poly q.1, .num q.2])]

theorem items_data (fc nvars : ℕ) (D : ParamData) : Items ('[' :: D.text fc nvars ++ [']']) [] (.list (D.tree fc nvars)) := by
  unfold ParamData.text ParamData.tree
  by_cases h : fc ≠ 0
  · simp only [if_pos h]
    have h1 := items_coords (fun q => '[' :: nmodText q ++ [']']) (fun q => Tree.list [poly (q.map fun c : ℕ => (c : ℤ))])
      (l := D.mcoords.getD []) fun q _ => (items_nmod q).list
    have h2 := (((items_nmod D.melim).append (items_nmod D.mdenom) white_nl).append h1 white_nl).list
    simpa using h2
  · simp only [if_neg h]
    have h1 := items_coords (fun q : List ℤ × ℤ => '[' :: upolyText q.1 ++ [',', '\n'] ++ mpzText q.2 ++ [']'])
      (fun q => Tree.list [poly q.1, .num q.2]) (l := (D.coords.getD []).take (nvars - 1)) fun q _ => by
        have := items_pair (items_upoly q.1) (items_mpz q.2) white_nl
        simpa using this
    have h2 := (((items_upoly D.elim).append (items_upoly D.denom) white_nl).append h1 white_nl).list
    simpa using h2

theorem items_param {g : Gens} {dquot : ℤ} {D : ParamData} (hfit : D.fits g) {nums : List ℤ} {den : ℤ}
    (hpf : printedForm g = some (nums, den)) (hd : 0 < den) (h1 : ¬ (g.rand = true ∧ g.fc = 0) → den = 1)
    (hq : ∀ s ∈ g.vnames, '\'' ∉ s.toList) :
    ∃ w, paramText g dquot D = some w ∧ Items w [] (.list [.num g.fc, .num g.nvars, .num dquot,
      .list ((g.vnames.take g.nvars).map fun s => .str s.toList), .list (nums.map fun a : ℤ => .num ((a : ℚ) / den)),
      .list [.num 1, .list (D.tree g.fc g.nvars)]]) := by
  have hn := items_list (fun s : String => '\'' :: s.toList ++ ['\'']) (fun s => Tree.str s.toList) white_sp white_nil white_nil
    (l := g.vnames.take g.nvars) fun s hs => items_name (hq s (List.mem_of_mem_take hs))
  have hp := items_pair (items_mpz 1) (items_data g.fc g.nvars D) white_nl
  have h := ((((((items_mpz g.fc).append (items_mpz g.nvars) white_spnl).append (items_mpz dquot) white_spnl).append hn white_spnl).append
    (items_form g nums hd h1) white_nl).append hp white_nl).list
  unfold paramText
  rw [if_pos hfit, hpf]
  refine ⟨_, rfl, ?_⟩
  simpa [mpzText_one, List.map_take] using h

theorem read_items {w : List Char} {t : Tree} (h : Items w [] t) : readOutput (w ++ [':', '\n']) = some t := by
  obtain ⟨m, h1, h2⟩ := h .entry (.inr rfl) [] []
  unfold readOutput
  have hl : (w ++ [':', '\n']).length - 2 = w.length := by simp
  rw [hl, List.drop_left, List.take_left, if_pos rfl, h1]
  exact h2

end Verif.Output
