import Verif.Options
import Verif.Spec.CommandLine

/-!
C88: the command line.
-/
namespace Verif.Props

open Verif.Options Verif.Parse Verif.Spec.CommandLine

namespace Options

/-! ### `getopt` -/

def item : Occ → Item
  | .flag c => .opt c none
  | .val c a => .opt c (some a)
  | .wrong => .bad

theorem kind_flag {c : Char} (h : c ∈ flags) : kind c = some false := by
  have : ∀ c ∈ flags, kind c = some false := by decide
  exact this c h

theorem kind_valued {c : Char} (h : c ∈ valued) : kind c = some true := by
  have : ∀ c ∈ valued, kind c = some true := by decide
  exact this c h

theorem kind_none {c : Char} (h1 : c ∉ flags) (h2 : c ∉ valued) : kind c = none := by
  unfold kind
  have h0 : ∀ c ∈ ['h', 'i', 'S', 'C', 'V'], c ∈ flags := by decide
  rw [if_neg fun h => h1 (h0 c h), if_neg]
  intro h
  have : ∀ c ∈ ['f', 'N', 'F', 'v', 'l', 't', 'e', 'o', 'O', 'u', 'I', 'p', 'P', 'L', 'q', 'g', 'c', 's', 'r', 'R', 'm', 'M', 'n', 'd'], c ∈ valued := by decide
  exact h2 (this c h)

theorem scan_cons (next : Option (List Char)) (c : Char) (cs : List Char) : scan next (c :: cs) =
    match kind c with
    | none => (.bad :: (scan next cs).1, (scan next cs).2)
    | some false => (.opt c none :: (scan next cs).1, (scan next cs).2)
    | some true =>
      if cs = [] then
        match next with
        | some a => ([.opt c (some a)], true)
        | none => ([.bad], false)
      else ([.opt c (some cs)], false) := rfl

theorem scan_letters {next : Option (List Char)} {os : List Occ} {s : List Char} (h : Letters os s) (t : List Char) :
    scan next (s ++ t) = (os.map item ++ (scan next t).1, (scan next t).2) := by
  induction h with
  | nil => rfl
  | flag hc _ ih =>
    rw [List.cons_append, scan_cons, kind_flag hc, ih]
    rfl
  | wrong h1 h2 _ ih =>
    rw [List.cons_append, scan_cons, kind_none h1 h2, ih]
    rfl

theorem getopt_dash {s : List Char} (h1 : s ≠ []) (h2 : s ≠ ['-']) (rest : List (List Char)) :
    getopt (('-' :: s) :: rest) = (scan rest.head? s).1 ++ getopt (if (scan rest.head? s).2 then rest.tail else rest) := by
  obtain ⟨c, cs, rfl⟩ := List.exists_cons_of_ne_nil h1
  rw [getopt.eq_def]
  dsimp only
  split
  · next h => exact absurd (List.cons.inj h).2 h2
  · next h =>
    obtain ⟨rfl, rfl⟩ := List.cons.inj (List.cons.inj h).2
    rfl
  · next h => exact absurd rfl (h _ _)

theorem dash_valued {s a : List Char} {c : Char} (h : c ∈ valued) : s ++ c :: a ≠ [] ∧ s ++ c :: a ≠ ['-'] := by
  refine ⟨by simp, fun he => ?_⟩
  cases s with
  | nil =>
    have : c = '-' := (List.cons.inj he).1
    subst this
    exact absurd h (by decide)
  | cons x s => exact absurd (List.cons.inj he).2 (by simp)

theorem getopt_writes {os : List Occ} {argv : List (List Char)} (h : Writes os argv) : getopt argv = os.map item := by
  induction h with
  | nil => rw [getopt]; rfl
  | stop ws => rw [getopt.eq_def]; rfl
  | @word w os ws hw _ ih =>
    rw [getopt.eq_def]
    dsimp only
    split
    · exact absurd rfl (hw _ _)
    · exact absurd rfl (hw _ _)
    · exact ih
  | @letters os s os' ws hl h1 h2 _ ih =>
    have := scan_letters (next := ws.head?) hl []
    rw [List.append_nil] at this
    rw [getopt_dash h1 h2, this]
    simp only [scan, List.append_nil, Bool.false_eq_true, if_false, ih, List.map_append]
  | @next os s c a os' ws hl hc _ ih =>
    have h := dash_valued (s := s) (a := []) hc
    rw [getopt_dash h.1 h.2, scan_letters hl]
    simp [scan, kind_valued hc, ih, item]
  | @same os s c a os' ws hl hc ha _ ih =>
    have h := dash_valued (s := s) (a := a) hc
    rw [getopt_dash h.1 h.2, scan_letters hl]
    simp [scan, kind_valued hc, ih, item, ha]
  | @missing os s c hl hc =>
    have h := dash_valued (s := s) (a := []) hc
    rw [getopt_dash h.1 h.2, scan_letters hl]
    simp [scan, kind_valued hc, item, getopt]

theorem item_inj : Function.Injective item := by
  intro a b h
  cases a <;> cases b <;> simp [item] at h ⊢ <;> assumption

theorem letters_or (s : List Char) : (∃ os, Letters os s) ∨ ∃ os s1 c a, Letters os s1 ∧ c ∈ valued ∧ s = s1 ++ c :: a := by
  induction s with
  | nil => exact .inl ⟨_, .nil⟩
  | cons c s ih =>
    by_cases hv : c ∈ valued
    · exact .inr ⟨_, [], c, s, .nil, hv, rfl⟩
    · have hcons : ∀ {os t}, Letters os t → ∃ os', Letters os' (c :: t) := fun {os t} ht => by
        by_cases hf : c ∈ flags
        · exact ⟨_, .flag hf ht⟩
        · exact ⟨_, .wrong hf hv ht⟩
      rcases ih with ⟨os, h⟩ | ⟨os, s1, c1, a, h1, h2, rfl⟩
      · exact .inl (hcons h)
      · obtain ⟨os', h'⟩ := hcons h1
        exact .inr ⟨os', c :: s1, c1, a, h', h2, rfl⟩

theorem writes_exists : ∀ (n : ℕ) (argv : List (List Char)), argv.length ≤ n → ∃ os, Writes os argv := by
  intro n
  induction n with
  | zero =>
    intro argv h
    obtain rfl := List.length_eq_zero_iff.1 (Nat.le_zero.1 h)
    exact ⟨_, .nil⟩
  | succ n ih =>
    intro argv h
    cases argv with
    | nil => exact ⟨_, .nil⟩
    | cons w ws =>
      have hws : ws.length ≤ n := by simpa using h
      obtain ⟨os', ho'⟩ := ih ws hws
      by_cases hw : ∀ c s, w ≠ '-' :: c :: s
      · exact ⟨_, .word hw ho'⟩
      · push Not at hw
        obtain ⟨c, s, rfl⟩ := hw
        by_cases hd : c :: s = ['-']
        · rw [hd]
          exact ⟨_, .stop ws⟩
        · rcases letters_or (c :: s) with ⟨os, hl⟩ | ⟨os, s1, c1, a, h1, h2, h3⟩
          · exact ⟨_, .letters hl (by simp) hd ho'⟩
          · rw [h3]
            by_cases ha : a = []
            · subst ha
              cases ws with
              | nil => exact ⟨_, .missing h1 h2⟩
              | cons b bs =>
                obtain ⟨os2, ho2⟩ := ih bs (by simp at hws; omega)
                exact ⟨_, .next h1 h2 ho2⟩
            · exact ⟨_, .same h1 h2 ha ho'⟩

/-- The letters of the occurrences. -/
def Wf (os : List Occ) : Prop := ∀ o ∈ os, match o with | .flag c => c ∈ flags | .val c _ => c ∈ valued | .wrong => True

theorem letters_wf {os : List Occ} {s : List Char} (h : Letters os s) : Wf os := by
  induction h with
  | nil => intro o ho; exact absurd ho (by simp)
  | flag hc _ ih =>
    intro o ho
    rcases List.mem_cons.1 ho with rfl | ho
    · exact hc
    · exact ih o ho
  | wrong _ _ _ ih =>
    intro o ho
    rcases List.mem_cons.1 ho with rfl | ho
    · trivial
    · exact ih o ho

theorem Wf.append {a b : List Occ} (ha : Wf a) (hb : Wf b) : Wf (a ++ b) := fun o ho => (List.mem_append.1 ho).elim (ha o) (hb o)

theorem Wf.cons {o : Occ} {b : List Occ} (ha : match o with | .flag c => c ∈ flags | .val c _ => c ∈ valued | .wrong => True) (hb : Wf b) : Wf (o :: b) := fun x hx => by
  rcases List.mem_cons.1 hx with rfl | hx
  · exact ha
  · exact hb x hx

theorem Wf.nil : Wf [] := fun _ h => absurd h (by simp)

theorem writes_wf {os : List Occ} {argv : List (List Char)} (h : Writes os argv) : Wf os := by
  induction h with
  | nil => exact Wf.nil
  | stop ws => exact Wf.nil
  | word _ _ ih => exact ih
  | letters hl _ _ _ ih => exact (letters_wf hl).append ih
  | next hl hc _ ih => exact (letters_wf hl).append (Wf.cons hc ih)
  | same hl hc _ _ ih => exact (letters_wf hl).append (Wf.cons hc ih)
  | missing hl _ => exact (letters_wf hl).append (Wf.cons trivial Wf.nil)

/-! ### The loop -/

/-- The last item with a letter. -/
def lastItem (c : Char) : List Item → Option (Option (List Char))
  | [] => none
  | i :: is => (lastItem c is).or (match i with | .opt c' a => if c' = c then some a else none | .bad => none)

theorem lastItem_cons (c : Char) (i : Item) (is : List Item) :
    lastItem c (i :: is) = (lastItem c is).or (match i with | .opt c' a => if c' = c then some a else none | .bad => none) := rfl

theorem loop_field {α : Type} {π : Opts → α} {c : Char} {g : Option (List Char) → α}
    (h : ∀ s i s', step s i = .inl s' → π s'.o = (match i with | .opt c' a => if c' = c then g a else π s.o | .bad => π s.o)) :
    ∀ {is : List Item} {s s' : LoopSt}, loop s is = .inl s' → π s'.o = ((lastItem c is).map g).getD (π s.o) := by
  intro is
  induction is with
  | nil =>
    intro s s' hl
    simp only [loop, Sum.inl.injEq] at hl
    subst hl
    rfl
  | cons i is ih =>
    intro s s' hl
    unfold loop at hl
    cases hs : step s i with
    | inr r => rw [hs] at hl; exact absurd hl (by simp)
    | inl s1 =>
      rw [hs] at hl
      have h1 := ih hl
      have h2 := h s i s1 hs
      rw [h1, h2, lastItem_cons]
      cases lastItem c is with
      | some a => simp
      | none =>
        cases i with
        | bad => simp
        | opt c' a =>
          by_cases hc : c' = c <;> simp [hc]

theorem lastVal_cons (c : Char) (o : Occ) (os : List Occ) :
    lastVal c (o :: os) = (lastVal c os).or (match o with | .val c' a => if c' = c then some a else none | _ => none) := rfl

theorem lastItem_valued {c : Char} (hc : c ∈ valued) : ∀ {os : List Occ}, Wf os → lastItem c (os.map item) = (lastVal c os).map some
  | [], _ => rfl
  | o :: os, h => by
    have ih := lastItem_valued hc (os := os) fun x hx => h x (List.mem_cons_of_mem _ hx)
    rw [List.map_cons, lastItem_cons, lastVal_cons, ih]
    have ho := h o List.mem_cons_self
    cases lastVal c os with
    | some a => simp
    | none =>
      cases o with
      | wrong => simp [item]
      | val c' a => by_cases hcc : c' = c <;> simp [item, hcc]
      | flag c' =>
        have : c' ≠ c := by
          rintro rfl
          exact absurd (kind_flag ho) (by rw [kind_valued hc]; simp)
        simp [item, this]

theorem lastItem_flag {c : Char} (hc : c ∈ flags) : ∀ {os : List Occ}, Wf os → lastItem c (os.map item) = if Occ.flag c ∈ os then some none else none
  | [], _ => rfl
  | o :: os, h => by
    have ih := lastItem_flag hc (os := os) fun x hx => h x (List.mem_cons_of_mem _ hx)
    rw [List.map_cons, lastItem_cons, ih]
    have ho := h o List.mem_cons_self
    by_cases hm : Occ.flag c ∈ os
    · simp [hm]
    · cases o with
      | wrong => simp [item, hm]
      | flag c' =>
        by_cases hcc : c' = c
        · simp [item, hm, hcc]
        · have : ¬ c = c' := fun h => hcc h.symm
          simp [item, hm, hcc, this]
      | val c' a =>
        have : c' ≠ c := by
          rintro rfl
          exact absurd (kind_flag hc) (by rw [kind_valued ho]; simp)
        simp [item, hm, this]

theorem loop_inl : ∀ {is : List Item} {s : LoopSt}, (∀ a, Item.opt 'h' a ∉ is) → (∀ a, Item.opt 'V' a ∉ is) → ∃ s', loop s is = .inl s'
  | [], s, _, _ => ⟨s, rfl⟩
  | i :: is, s, h1, h2 => by
    have key : ∃ s1, step s i = .inl s1 := by
      cases i with
      | bad => exact ⟨_, rfl⟩
      | opt c a =>
        have hh : c ≠ 'h' := by rintro rfl; exact h1 a List.mem_cons_self
        have hV : c ≠ 'V' := by rintro rfl; exact h2 a List.mem_cons_self
        unfold step
        dsimp only
        split <;> first | exact ⟨_, rfl⟩ | contradiction
    obtain ⟨s1, hs⟩ := key
    obtain ⟨s', h'⟩ := loop_inl (is := is) (s := s1) (fun a ha => h1 a (List.mem_cons_of_mem _ ha)) fun a ha => h2 a (List.mem_cons_of_mem _ ha)
    exact ⟨s', by rw [loop, hs]; exact h'⟩

theorem loop_append : ∀ {is js : List Item} {s s1 : LoopSt}, loop s is = .inl s1 → loop s (is ++ js) = loop s1 js
  | [], js, s, s1, h => by
    simp only [loop, Sum.inl.injEq] at h
    rw [h]; rfl
  | i :: is, js, s, s1, h => by
    unfold loop at h
    rw [List.cons_append, loop]
    cases hs : step s i with
    | inr r => rw [hs] at h; exact absurd h (by simp)
    | inl s2 =>
      rw [hs] at h
      exact loop_append h

theorem step_err {s s' : LoopSt} {o : Occ} (ho : match o with | .flag c => c ∈ flags | .val c _ => c ∈ valued | .wrong => True)
    (h : step s (item o) = .inl s') : s'.err = (s.err || decide (o = .wrong)) := by
  have hd : ∀ c a, (c ∈ flags ∨ c ∈ valued) → step s (.opt c a) = .inl s' → s'.err = s.err := by
    intro c a hc h
    unfold step at h
    dsimp only at h
    split at h <;> first
      | (injection h with h; subst h; rfl)
      | (cases h; done)
      | skip
    exfalso
    have : ∀ c, c ∈ flags ∨ c ∈ valued → c ∈ flags ++ valued := fun c hc => List.mem_append.2 hc
    have h2 := this c hc
    have h3 : flags ++ valued = ['h', 'i', 'S', 'C', 'V', 'f', 'N', 'F', 'v', 'l', 't', 'e', 'o', 'O', 'u', 'I', 'p', 'P', 'L', 'q', 'g', 'c', 's', 'r', 'R', 'm', 'M', 'n', 'd'] := by
      decide
    rw [h3] at h2
    simp only [List.mem_cons, List.not_mem_nil, or_false] at h2
    simp_all
  cases o with
  | wrong =>
    simp only [item, step, Sum.inl.injEq] at h
    subst h
    simp
  | flag c => rw [hd c none (.inl ho) h]; simp
  | val c a => rw [hd c (some a) (.inr ho) h]; simp

theorem step_fflag {s s' : LoopSt} {o : Occ} (ho : match o with | .flag c => c ∈ flags | .val c _ => c ∈ valued | .wrong => True) (h : step s (item o) = .inl s') :
    s'.fflag = (s.fflag && !(match o with | .val c _ => decide (c = 'f') || decide (c = 'F') | _ => false)) := by
  have hd : ∀ c a, step s (.opt c a) = .inl s' → s'.fflag = (s.fflag && !(decide (c = 'f') || decide (c = 'F'))) := by
    intro c a h
    unfold step at h
    dsimp only at h
    split at h <;> first
      | (injection h with h; subst h; simp_all)
      | cases h
  cases o with
  | wrong =>
    simp only [item, step, Sum.inl.injEq] at h
    subst h
    simp
  | flag c =>
    rw [hd c none h]
    have h1 : c ≠ 'f' := by rintro rfl; exact absurd ho (by decide)
    have h2 : c ≠ 'F' := by rintro rfl; exact absurd ho (by decide)
    simp [h1, h2]
  | val c a => exact hd c (some a) h

theorem loop_flags : ∀ {os : List Occ} {s s' : LoopSt}, Wf os → loop s (os.map item) = .inl s' →
    (s'.err = (s.err || decide (Occ.wrong ∈ os))) ∧ (s'.fflag = true ↔ s.fflag = true ∧ lastVal 'f' os = none ∧ lastVal 'F' os = none)
  | [], s, s', _, h => by
    simp only [List.map_nil, loop, Sum.inl.injEq] at h
    subst h
    simp [lastVal]
  | o :: os, s, s', hw, h => by
    rw [List.map_cons, loop] at h
    cases hs : step s (item o) with
    | inr r => rw [hs] at h; exact absurd h (by simp)
    | inl s1 =>
      rw [hs] at h
      have ho := hw o List.mem_cons_self
      obtain ⟨h1, h2⟩ := loop_flags (fun x hx => hw x (List.mem_cons_of_mem _ hx)) h
      constructor
      · rw [h1, step_err ho hs]
        cases o <;> simp
      · rw [h2, step_fflag ho hs]
        cases o with
        | wrong => simp [lastVal]
        | flag c => simp [lastVal]
        | val c a =>
          simp only [lastVal]
          by_cases hf : c = 'f'
          · subst hf; simp
          · by_cases hF : c = 'F'
            · subst hF; simp
            · simp [hf, hF]

/-! ### Numbers -/

theorem toInt32_id {v : ℤ} (h1 : -2 ^ 31 ≤ v) (h2 : v < 2 ^ 31) : toInt32 v = v := by
  unfold toInt32
  omega

theorem toInt32_range (v : ℤ) : -2 ^ 31 ≤ toInt32 v ∧ toInt32 v < 2 ^ 31 := by
  unfold toInt32
  omega

theorem strtol_minus {ds : List Char} (h : Spec.Text.Digits ds) : strtol ('-' :: ds) = max (-(Spec.Text.dec ds : ℤ)) (-2 ^ 63) := by
  have h1 : ('-' :: ds).dropWhile Spec.Text.isSpace = '-' :: ds := by
    rw [List.dropWhile_cons, if_neg (by decide)]
  have h2 : ds.takeWhile Char.isDigit = ds := by
    have : ∀ l : List Char, (∀ c ∈ l, c.isDigit = true) → l.takeWhile Char.isDigit = l := by
      intro l hl
      induction l with
      | nil => rfl
      | cons c l ih => rw [List.takeWhile_cons, if_pos (hl c List.mem_cons_self), ih fun x hx => hl x (List.mem_cons_of_mem _ hx)]
    exact this ds h.2
  unfold strtol
  simp only [h1, h2, if_true]
  rfl

theorem num_number {a : List Char} {v : ℤ} (h : IsNumber a v) : num (some a) = v := by
  obtain ⟨h1, h2, ds, hd, ⟨rfl, rfl⟩ | ⟨rfl, rfl⟩⟩ := h
  · have := strtol_digits (tl := []) hd (fun x l h => absurd h (by simp))
    rw [List.append_nil] at this
    unfold num
    rw [Option.getD_some, this, min_eq_left (by omega), toInt32_id h1 h2]
  · unfold num
    rw [Option.getD_some, strtol_minus hd, max_eq_left (by omega), toInt32_id h1 h2]

theorem follows {os : List Occ} (hw : Wf os) {s' : LoopSt} (hl : loop {} (os.map item) = .inl s') {π : Opts → ℤ} {c : Char} (hc : c ∈ valued) {f : ℤ → ℤ}
    (h : ∀ s i s', step s i = .inl s' → π s'.o = (match i with | .opt c' a => if c' = c then f (num a) else π s.o | .bad => π s.o)) :
    Follows os c (π {}) f (π s'.o) := by
  have := loop_field (g := fun a => f (num a)) h hl
  rw [lastItem_valued hc hw] at this
  constructor
  · intro hn
    rw [this, hn]
    rfl
  · intro a v ha hv
    rw [this, ha]
    simp [num_number hv]

theorem switched {os : List Occ} (hw : Wf os) {s' : LoopSt} (hl : loop {} (os.map item) = .inl s') {π : Opts → ℤ} {c : Char} (hc : c ∈ flags) (h0 : π {} = 0)
    (h : ∀ s i s', step s i = .inl s' → π s'.o = (match i with | .opt c' _ => if c' = c then 1 else π s.o | .bad => π s.o)) :
    Switched os c (π s'.o) := by
  have := loop_field (g := fun _ => (1 : ℤ)) h hl
  rw [lastItem_flag hc hw] at this
  unfold Switched
  rw [this]
  split_ifs
  · rfl
  · exact h0

theorem named {os : List Occ} (hw : Wf os) {s' : LoopSt} (hl : loop {} (os.map item) = .inl s') {π : Opts → Option (List Char)} {c : Char} (hc : c ∈ valued) (h0 : π {} = none)
    (h : ∀ s i s', step s i = .inl s' → π s'.o = (match i with | .opt c' a => if c' = c then a else π s.o | .bad => π s.o)) :
    π s'.o = lastVal c os := by
  have := loop_field (g := fun a => a) h hl
  rw [lastItem_valued hc hw] at this
  rw [this]
  change _ = _
  cases lastVal c os <;> simp [h0]

macro "option_field" : tactic => `(tactic| (
  intro s i s' h
  cases i with
  | bad =>
    simp only [step, Sum.inl.injEq] at h
    subst h
    rfl
  | opt c a =>
    unfold step at h
    dsimp only at h
    split at h <;> first
      | (injection h with h; subst h; rfl)
      | (cases h; done)
      | (injection h with h; subst h; simp_all; done)
      | (injection h with h; subst h; simp_all; split_ifs <;> omega)))

theorem getoptions_eq {os : List Occ} {argv : List (List Char)} (hw : Writes os argv) :
    getoptions argv = match loop {} (os.map item) with
      | .inr r => r
      | .inl s => if s.fflag then .noFile else if s.err then .usage else .run s.o := by
  unfold getoptions
  rw [getopt_writes hw]
  cases loop {} (os.map item) <;> rfl

theorem no_flag {c : Char} (hc : c ∈ flags) {os : List Occ} (hw : Wf os) (h : Occ.flag c ∉ os) (a : Option (List Char)) : Item.opt c a ∉ os.map item := by
  intro hm
  obtain ⟨o, ho, he⟩ := List.mem_map.1 hm
  have := hw o ho
  cases o with
  | wrong => simp [item] at he
  | flag c' =>
    simp only [item, Item.opt.injEq] at he
    rw [he.1] at ho
    exact h ho
  | val c' b =>
    simp only [item, Item.opt.injEq] at he
    rw [he.1] at this
    exact absurd (kind_flag hc) (by rw [kind_valued this]; simp)

theorem inl_of {os : List Occ} (hw : Wf os) (hh : Occ.flag 'h' ∉ os) (hV : Occ.flag 'V' ∉ os) : ∃ s', loop {} (os.map item) = .inl s' :=
  loop_inl (no_flag (by decide) hw hh) (no_flag (by decide) hw hV)

end Options

open Options

/-- C88: every command line can be read in exactly one way. -/
theorem C88_every (argv : List (List Char)) : ∃! os, Writes os argv := by
  obtain ⟨os, h⟩ := writes_exists _ argv le_rfl
  refine ⟨os, h, fun os' h' => ?_⟩
  have h1 := getopt_writes h
  rw [getopt_writes h'] at h1
  exact List.map_injective_iff.2 item_inj h1

/-- C88: the settings with which a computation is started are those of the help text: each setting depends only on the last occurrence of its own letter, and has its
default without it. -/
theorem C88_settings {os : List Occ} {argv : List (List Char)} (hw : Writes os argv) (hh : .flag 'h' ∉ os) (hV : .flag 'V' ∉ os) (hok : .wrong ∉ os)
    (hf : lastVal 'f' os ≠ none ∨ lastVal 'F' os ≠ none) :
    ∃ o, getoptions argv = .run o ∧ o.inFile = lastVal 'f' os ∧ o.binFile = lastVal 'F' os ∧ o.outFile = lastVal 'o' os ∧ o.binOutFile = lastVal 'O' os ∧
      Switched os 'i' o.isGb ∧ Switched os 'S' o.saturate ∧ Switched os 'C' o.colon ∧
      Follows os 't' 1 id o.threads ∧ Follows os 'v' 0 id o.info ∧ Follows os 'l' 2 id o.la ∧ Follows os 'm' 0 id o.maxPairs ∧ Follows os 's' 17 id o.hts ∧
      Follows os 'u' 0 id o.updateHt ∧ Follows os 'r' 1 id o.reduceGb ∧ Follows os 'L' 0 id o.liftMatrix ∧ Follows os 'N' 0 id o.truncate ∧
      Follows os 'g' 0 (fun v => max 0 (min 2 v)) o.printGb ∧ Follows os 'c' 2 (fun v => max 0 (min 2 v)) o.genericity ∧
      Follows os 'd' 2 (fun v => max 0 (min 4 v)) o.staircase ∧ Follows os 'e' 0 (max 0) o.elim ∧ Follows os 'n' 0 (max 0) o.normalForm ∧
      Follows os 'M' 0 (max 0) o.nfMatrix ∧ Follows os 'P' 0 (max 0) o.param ∧ Follows os 'p' 128 (fun v => if 0 ≤ v then v else 128) o.precision ∧
      Follows os 'q' 0 (fun v => if 0 ≤ v ∧ v ≤ 3 then v else 0) o.signatures := by
  have wf := writes_wf hw
  obtain ⟨s, hs⟩ := inl_of wf hh hV
  obtain ⟨he, hff⟩ := loop_flags wf hs
  refine ⟨s.o, ?_, ?_⟩
  · rw [getoptions_eq hw, hs]
    dsimp only
    rw [if_neg, if_neg]
    · rw [he]
      simpa using hok
    · rw [hff]
      rintro ⟨-, h1, h2⟩
      exact hf.elim (· h1) (· h2)
  · refine ⟨named wf hs (c := 'f') (π := Opts.inFile) (by decide) rfl (by option_field), named wf hs (c := 'F') (π := Opts.binFile) (by decide) rfl (by option_field),
      named wf hs (c := 'o') (π := Opts.outFile) (by decide) rfl (by option_field), named wf hs (c := 'O') (π := Opts.binOutFile) (by decide) rfl (by option_field),
      switched wf hs (c := 'i') (π := Opts.isGb) (by decide) rfl (by option_field), switched wf hs (c := 'S') (π := Opts.saturate) (by decide) rfl (by option_field),
      switched wf hs (c := 'C') (π := Opts.colon) (by decide) rfl (by option_field),
      follows wf hs (c := 't') (π := Opts.threads) (by decide) (by option_field), follows wf hs (c := 'v') (π := Opts.info) (by decide) (by option_field),
      follows wf hs (c := 'l') (π := Opts.la) (by decide) (by option_field), follows wf hs (c := 'm') (π := Opts.maxPairs) (by decide) (by option_field),
      follows wf hs (c := 's') (π := Opts.hts) (by decide) (by option_field), follows wf hs (c := 'u') (π := Opts.updateHt) (by decide) (by option_field),
      follows wf hs (c := 'r') (π := Opts.reduceGb) (by decide) (by option_field), follows wf hs (c := 'L') (π := Opts.liftMatrix) (by decide) (by option_field),
      follows wf hs (c := 'N') (π := Opts.truncate) (by decide) (by option_field),
      follows wf hs (c := 'g') (π := Opts.printGb) (by decide) (by option_field), follows wf hs (c := 'c') (π := Opts.genericity) (by decide) (by option_field),
      follows wf hs (c := 'd') (π := Opts.staircase) (by decide) (by option_field), follows wf hs (c := 'e') (π := Opts.elim) (by decide) (by option_field),
      follows wf hs (c := 'n') (π := Opts.normalForm) (by decide) (by option_field), follows wf hs (c := 'M') (π := Opts.nfMatrix) (by decide) (by option_field),
      follows wf hs (c := 'P') (π := Opts.param) (by decide) (by option_field), follows wf hs (c := 'p') (π := Opts.precision) (by decide) (by option_field),
      follows wf hs (c := 'q') (π := Opts.signatures) (by decide) (by option_field)⟩

/-- C88: otherwise nothing is computed: the first `-h` or `-V` is obeyed whatever else is on the command line; without them, a command line without a file, or with a mistake, is
rejected. -/
theorem C88_ends {os : List Occ} {argv : List (List Char)} (hw : Writes os argv) :
    (∀ pre post, os = pre ++ .flag 'h' :: post → .flag 'h' ∉ pre → .flag 'V' ∉ pre → getoptions argv = .help) ∧
    (∀ pre post, os = pre ++ .flag 'V' :: post → .flag 'h' ∉ pre → .flag 'V' ∉ pre → getoptions argv = .version) ∧
    (.flag 'h' ∉ os → .flag 'V' ∉ os → lastVal 'f' os = none → lastVal 'F' os = none → getoptions argv = .noFile) ∧
    (.flag 'h' ∉ os → .flag 'V' ∉ os → lastVal 'f' os ≠ none ∨ lastVal 'F' os ≠ none → .wrong ∈ os → getoptions argv = .usage) := by
  have wf := writes_wf hw
  have pre : ∀ pre post o, os = pre ++ o :: post → .flag 'h' ∉ pre → .flag 'V' ∉ pre → ∃ s, loop {} (os.map item) = loop s (item o :: post.map item) := by
    rintro pre post o rfl h1 h2
    obtain ⟨s, hs⟩ := inl_of (os := pre) (fun x hx => wf x (List.mem_append_left _ hx)) h1 h2
    refine ⟨s, ?_⟩
    rw [List.map_append, List.map_cons]
    exact loop_append hs
  rw [getoptions_eq hw]
  refine ⟨fun a b h h1 h2 => ?_, fun a b h h1 h2 => ?_, fun h1 h2 h3 h4 => ?_, fun h1 h2 h3 h4 => ?_⟩
  · obtain ⟨s, hs⟩ := pre _ _ _ h h1 h2
    rw [hs]
    rfl
  · obtain ⟨s, hs⟩ := pre _ _ _ h h1 h2
    rw [hs]
    rfl
  · obtain ⟨s, hs⟩ := inl_of wf h1 h2
    obtain ⟨he, hff⟩ := loop_flags wf hs
    rw [hs]
    exact if_pos (hff.2 ⟨rfl, h3, h4⟩)
  · obtain ⟨s, hs⟩ := inl_of wf h1 h2
    obtain ⟨he, hff⟩ := loop_flags wf hs
    rw [hs]
    dsimp only
    rw [if_neg, if_pos]
    · rw [he]
      simp [h4]
    · rw [hff]
      rintro ⟨-, h5, h6⟩
      exact h3.elim (· h5) (· h6)

/-- The settings are in the ranges that the rest of the program expects. -/
structure Options.InRange (o : Opts) : Prop where
  printGb : 0 ≤ o.printGb ∧ o.printGb ≤ 2
  genericity : 0 ≤ o.genericity ∧ o.genericity ≤ 2
  staircase : 0 ≤ o.staircase ∧ o.staircase ≤ 4
  signatures : 0 ≤ o.signatures ∧ o.signatures ≤ 3
  elim : 0 ≤ o.elim
  normalForm : 0 ≤ o.normalForm
  nfMatrix : 0 ≤ o.nfMatrix
  param : 0 ≤ o.param
  precision : 0 ≤ o.precision

theorem Options.step_range {s s' : LoopSt} {i : Item} (hr : InRange s.o) (h : step s i = .inl s') : InRange s'.o := by
  obtain ⟨⟨a1, a2⟩, ⟨a3, a4⟩, ⟨a5, a6⟩, ⟨a7, a8⟩, a9, a10, a11, a12, a13⟩ := hr
  cases i with
  | bad =>
    simp only [step, Sum.inl.injEq] at h
    subst h
    exact ⟨⟨a1, a2⟩, ⟨a3, a4⟩, ⟨a5, a6⟩, ⟨a7, a8⟩, a9, a10, a11, a12, a13⟩
  | opt c a =>
    unfold step at h
    dsimp only at h
    split at h <;> first
      | (injection h with h; subst h; constructor <;> (try dsimp only) <;> first | assumption | (constructor <;> first | assumption | (split_ifs <;> omega)) | (split_ifs <;> omega))
      | cases h

theorem Options.loop_range : ∀ {is : List Item} {s s' : LoopSt}, InRange s.o → loop s is = .inl s' → InRange s'.o
  | [], s, s', h, hl => by
    simp only [loop, Sum.inl.injEq] at hl
    subst hl
    exact h
  | i :: is, s, s', h, hl => by
    unfold loop at hl
    cases hs : step s i with
    | inr r => rw [hs] at hl; exact absurd hl (by simp)
    | inl s1 =>
      rw [hs] at hl
      exact loop_range (step_range h hs) hl

/-- C88: whatever is on the command line, also values that are not numbers or do not fit into 32 bits, a computation is started only with a file and with settings in their
ranges. -/
theorem C88_ranges {argv : List (List Char)} {o : Opts} (h : getoptions argv = .run o) :
    (o.inFile ≠ none ∨ o.binFile ≠ none) ∧ 0 ≤ o.printGb ∧ o.printGb ≤ 2 ∧ 0 ≤ o.genericity ∧ o.genericity ≤ 2 ∧ 0 ≤ o.staircase ∧ o.staircase ≤ 4 ∧
      0 ≤ o.signatures ∧ o.signatures ≤ 3 ∧ 0 ≤ o.elim ∧ 0 ≤ o.normalForm ∧ 0 ≤ o.nfMatrix ∧ 0 ≤ o.param ∧ 0 ≤ o.precision := by
  obtain ⟨os, hw⟩ := writes_exists _ argv le_rfl
  have wf := writes_wf hw
  rw [getoptions_eq hw] at h
  cases hl : loop {} (os.map item) with
  | inr r =>
    rw [hl] at h
    dsimp only at h
    subst h
    exfalso
    have : ∀ (is : List Item) (s : LoopSt), loop s is ≠ .inr (.run o) := by
      intro is
      induction is with
      | nil => intro s h; simp [loop] at h
      | cons i is ih =>
        intro s h
        unfold loop at h
        cases hs : step s i with
        | inl s1 => rw [hs] at h; exact ih s1 h
        | inr r =>
          rw [hs] at h
          cases i with
          | bad => simp [step] at hs
          | opt c a =>
            unfold step at hs
            dsimp only at hs
            split at hs <;> cases hs <;> cases h
    exact this _ _ hl
  | inl s =>
    rw [hl] at h
    dsimp only at h
    obtain ⟨he, hff⟩ := loop_flags wf hl
    split_ifs at h with h1 h2
    injection h with h
    subst h
    obtain ⟨⟨a1, a2⟩, ⟨a3, a4⟩, ⟨a5, a6⟩, ⟨a7, a8⟩, a9, a10, a11, a12, a13⟩ := loop_range (s := {}) (by constructor <;> decide) hl
    refine ⟨?_, a1, a2, a3, a4, a5, a6, a7, a8, a9, a10, a11, a12, a13⟩
    rw [named wf hl (c := 'f') (π := Opts.inFile) (by decide) rfl (by option_field), named wf hl (c := 'F') (π := Opts.binFile) (by decide) rfl (by option_field)]
    by_contra hc
    push Not at hc
    exact h1 (hff.2 ⟨rfl, hc.1, hc.2⟩)

/-- C88: over a field with less than `2^15` elements the linear algebra is exact, whatever was requested; otherwise it is what was requested. -/
theorem C88_exact (o : Opts) (fc : ℤ) :
    (0 < fc → fc < 2 ^ 15 → linearAlgebra o fc ≤ 2) ∧ (o.la ≤ 2 ∨ fc ≤ 0 ∨ 2 ^ 15 ≤ fc → linearAlgebra o fc = o.la) := by
  unfold linearAlgebra
  constructor
  · intro h1 h2
    split_ifs with h
    · exact le_rfl
    · omega
  · intro h
    rw [if_neg]
    omega

/-- C88: the program reads the content of the input file, and changes no other file than the output file, if they are different files and the output file can be written. -/
theorem C88_reads {o : Opts} {d : Disk} {can : List Char → Bool} {f c : List Char} (hf : o.inFile = some f) (hc : d f = some c) (ho : o.outFile ≠ some f)
    (hw : ∀ g, o.outFile = some g → can g = true) :
    (start o d can).1 = .reads c ∧ ∀ g, o.outFile ≠ some g → (start o d can).2 g = d g := by
  unfold start
  rw [if_neg (by simp [hf, hc])]
  cases hg : o.outFile with
  | none => simp [hf, hc]
  | some g =>
    have hne : f ≠ g := by
      rintro rfl
      exact ho hg
    rw [hg] at hw
    dsimp only
    rw [if_pos (hw g rfl)]
    simp only [hf, Option.bind_some, if_neg hne, hc, true_and]
    intro x hx
    rw [if_neg]
    rintro rfl
    exact hx rfl

/-- C88: nothing is changed if the input or the output cannot be opened. -/
theorem C88_untouched {o : Opts} {d : Disk} {can : List Char → Bool} (h : (start o d can).1 = .notFound ∨ (start o d can).1 = .noOutput) : (start o d can).2 = d := by
  unfold start at h ⊢
  split_ifs at h ⊢ with h1
  · rfl
  · cases hg : o.outFile with
    | none =>
      rw [hg] at h
      cases hi : o.inFile.bind d <;> simp [hi] at h ⊢
    | some g =>
      rw [hg] at h
      dsimp only at h ⊢
      split_ifs at h ⊢ with h2
      · cases hi : (o.inFile.bind fun x => if x = g then some [] else d x) <;> simp [hi] at h
      · rfl

/-- C88 (finding): the output file is emptied before the input is read: with the same file for both, the input is lost and an empty file is read. -/
theorem C88_same_file {o : Opts} {d : Disk} {can : List Char → Bool} {f c : List Char} (hf : o.inFile = some f) (hc : d f = some c) (ho : o.outFile = some f) (hw : can f = true) :
    (start o d can).1 = .reads [] ∧ (start o d can).2 f = some [] := by
  unfold start
  rw [if_neg (by simp [hf, hc]), ho]
  dsimp only
  rw [if_pos hw]
  simp [hf]

/-- C88 (finding): with `-F` but without `-f`, which is not rejected, no input is ever read: if the file of `-F` and the output can be opened, the name of the input is a null pointer. -/
theorem C88_binary_only {o : Opts} {d : Disk} {can : List Char → Bool} {f c : List Char} (hf : o.inFile = none) (hb : o.binFile = some f) (hc : d f = some c)
    (hw : ∀ g, o.outFile = some g → can g = true) : (start o d can).1 = .null := by
  unfold start
  rw [if_neg (by simp [hb, hc])]
  cases hg : o.outFile with
  | none => simp [hf]
  | some g =>
    rw [hg] at hw
    simp [hf, hw g rfl]

/-- C88 (finding): `-I`, which has no value in the help text, takes the next word: the file is not found. -/
theorem C88_I : getoptions ["-I".toList, "-f".toList, "in.ms".toList] = .noFile := by
  have h : Writes [.val 'I' "-f".toList] ["-I".toList, "-f".toList, "in.ms".toList] :=
    .next (os := []) (s := []) .nil (by decide) (.word (by intro c s h; exact absurd (List.cons.inj h).1 (by decide)) .nil)
  exact (C88_ends h).2.2.1 (by decide) (by decide) (by decide) (by decide)

/-- C88 (finding): values are reduced modulo `2^32` before they are compared with their bounds: `-g 4294967297` is `-g 1`, and `-g 4294967295` is `-g 0`. -/
theorem C88_wraps : ∃ o1 o2, getoptions ["-fx".toList, "-g4294967297".toList] = .run o1 ∧ o1.printGb = 1 ∧
    getoptions ["-fx".toList, "-g4294967295".toList] = .run o2 ∧ o2.printGb = 0 := by
  have h : ∀ a : List Char, a ≠ [] → Writes [.val 'f' ['x'], .val 'g' a] ["-fx".toList, '-' :: 'g' :: a] := fun a ha =>
    .same (os := []) (s := []) (c := 'f') (a := ['x']) .nil (by decide) (by simp) (.same (os := []) (s := []) (c := 'g') .nil (by decide) ha .nil)
  have e1 := getoptions_eq (h "4294967297".toList (by decide))
  have e2 := getoptions_eq (h "4294967295".toList (by decide))
  exact ⟨_, _, e1, by decide +kernel, e2, by decide +kernel⟩

/-- A command line with flags behind one dash, values in the same and in the next word, a repeated option and another word. -/
example : Writes [.flag 'S', .flag 'i', .val 'g' "1".toList, .val 'f' "in.ms".toList, .val 'g' "2".toList]
    ["-Sig1".toList, "-f".toList, "in.ms".toList, "word".toList, "-g".toList, "2".toList] :=
  .same (os := [.flag 'S', .flag 'i']) (s := ['S', 'i']) (.flag (by decide) (.flag (by decide) .nil)) (by decide) (by decide)
    (.next (os := []) (s := []) .nil (by decide) (.word (by intro c s h; exact absurd (List.cons.inj h).1 (by decide)) (.next (os := []) (s := []) .nil (by decide) .nil)))

example : IsNumber "-12".toList (-12) := ⟨by decide, by decide, "12".toList, ⟨by decide, by decide⟩, .inr ⟨rfl, by decide⟩⟩

/-- Input and output of the hypotheses of `C88_reads`. -/
example : let o : Opts := { inFile := some ['a'], outFile := some ['b'] }
    o.inFile = some ['a'] ∧ (fun g => if g = ['a'] then some ['x'] else none : Disk) ['a'] = some ['x'] ∧ o.outFile ≠ some ['a'] := by decide

end Verif.Props
