import Verif.Batch
import Mathlib.Data.Fin.VecNotation
import Mathlib.Data.Fintype.Basic
import Mathlib.Tactic.FinCases

/-! Property C67: batches of primes in parallel. -/

namespace Verif.Props.Batch67

open Verif.Spec Verif.Batch

variable {α : Type} {m : Nat}

/-- The slot is allocated. -/
def Alloc (x : Slot α) : Prop := x ≠ .null

/-! ### Batches without rejected primes -/

/-- What holds in all states if no prime is rejected. -/
structure Inv (job : Fin m → Job α) (s : St α m) : Prop where
  err : s.err = 0
  alloc : ∀ i, Alloc (s.param i)
  nocrash : ∀ i, s.pc i ≠ .crash
  back : ∀ i b, s.pc i = .back b → b = .full
  bad : ∀ i, s.pc i ≠ .stop → s.bad i = false
  stop : ∀ i, s.pc i = .stop → match job i with
    | .image a => s.bad i = false ∧ s.param i = .val (some a)
    | _ => s.bad i = true

theorem inv_use {job : Fin m → Job α} {s : St α m} (h : Inv job s) {i : Fin m} {v : Option α} {b : Bool}
    (hv : match job i with
      | .image a => b = false ∧ v = some a
      | _ => b = true) : Inv job (useBasis v b i s) := by
  obtain ⟨h1, h2, h3, h4, h5, h6⟩ := h
  unfold useBasis
  cases hp : s.param i with
  | null => exact absurd hp (h2 i)
  | val w =>
    simp only
    refine ⟨h1, ?_, ?_, ?_, ?_, ?_⟩ <;> intro j
    · by_cases hj : j = i
      · subst hj; simp [Alloc]
      · simpa [Function.update_of_ne hj] using h2 j
    · by_cases hj : j = i
      · subst hj; simp
      · simpa [Function.update_of_ne hj] using h3 j
    · intro b' hb
      by_cases hj : j = i
      · subst hj; simp at hb
      · simp only [Function.update_of_ne hj] at hb; exact h4 j b' hb
    · intro hs
      by_cases hj : j = i
      · subst hj; simp at hs
      · simp only [Function.update_of_ne hj] at hs ⊢; exact h5 j hs
    · intro hs
      by_cases hj : j = i
      · subst hj
        simp only [Function.update_self]
        cases hjob : job j with
        | image a => rw [hjob] at hv; exact ⟨hv.1, by rw [hv.2]⟩
        | failed => rw [hjob] at hv; exact hv
        | rejected c hc => rw [hjob] at hv; exact hv
      · simp only [Function.update_of_ne hj] at hs ⊢; exact h6 j hs

theorem inv_step {job : Fin m → Job α} (hj : ∀ i c h, job i ≠ .rejected c h) {s s' : St α m} (h : Inv job s)
    (hs : Step job s s') : Inv job s' := by
  obtain ⟨_, i, hi⟩ := hs
  have h0 := h
  obtain ⟨h1, h2, h3, h4, h5, h6⟩ := h
  -- a step that only moves the thread
  have move : ∀ pc', pc' ≠ .crash → (∀ b, pc' = .back b → b = .full) → pc' ≠ .stop → s.pc i ≠ .stop →
      Inv job { s with pc := Function.update s.pc i pc' } := by
    intro pc' a1 a2 a3 a4
    refine ⟨h1, h2, ?_, ?_, ?_, ?_⟩ <;> intro j
    · by_cases hji : j = i
      · subst hji; simpa using a1
      · simpa [Function.update_of_ne hji] using h3 j
    · intro b hb
      by_cases hji : j = i
      · subst hji; simp only [Function.update_self] at hb; exact a2 b hb
      · simp only [Function.update_of_ne hji] at hb; exact h4 j b hb
    · intro hst
      by_cases hji : j = i
      · subst hji; exact h5 j a4
      · simp only [Function.update_of_ne hji] at hst; exact h5 j hst
    · intro hst
      by_cases hji : j = i
      · subst hji; simp only [Function.update_self] at hst; exact absurd hst a3
      · simp only [Function.update_of_ne hji] at hst; exact h6 j hst
  unfold step at hi
  cases hpc : s.pc i with
  | start =>
    rw [hpc] at hi
    obtain rfl := Option.some.inj hi
    have := move .rounds (by simp) (by simp) (by simp) (by simp [hpc])
    rw [← h1]
    exact this
  | rounds =>
    rw [hpc] at hi
    obtain rfl := Option.some.inj hi
    have := move .test (by simp) (by simp) (by simp) (by simp [hpc])
    cases hjob : job i with
    | rejected c hc => exact absurd hjob (hj i c hc)
    | failed => exact this
    | image a => exact this
  | test =>
    rw [hpc] at hi
    obtain rfl := Option.some.inj hi
    rw [if_neg (by omega : ¬ 0 < s.err)]
    cases hjob : job i with
    | rejected c hc => exact absurd hjob (hj i c hc)
    | failed => exact move (.back .full) (by simp) (by simp) (by simp) (by simp [hpc])
    | image a => exact move (.back .full) (by simp) (by simp) (by simp) (by simp [hpc])
  | back b =>
    rw [hpc] at hi
    obtain rfl := Option.some.inj hi
    have hb := h4 i b hpc
    subst hb
    rw [if_neg (by omega : ¬ 0 < s.err)]
    cases hjob : job i with
    | rejected c hc => exact absurd hjob (hj i c hc)
    | failed => exact inv_use h0 (by rw [hjob])
    | image a => exact inv_use h0 (by rw [hjob]; exact ⟨rfl, rfl⟩)
  | stop => rw [hpc] at hi; simp at hi
  | crash => rw [hpc] at hi; simp at hi

theorem inv_reach {job : Fin m → Job α} (hj : ∀ i c h, job i ≠ .rejected c h) {param : Fin m → Slot α}
    (hp : ∀ i, Alloc (param i)) {s : St α m} (h : Reach job param s) : Inv job s := by
  unfold Reach at h
  induction h with
  | refl => exact ⟨rfl, hp, by simp [init], by simp [init], by simp [init], by simp [init]⟩
  | tail _ h ih => exact inv_step hj ih h

/-- **C67, partial**: as long as no prime is rejected by F4 with the trace, all batches, with any schedules of
any number of threads, leave exactly the images of the primes which have one, and no null pointer is used. Missing:
batches with rejected primes, see `C67_next_batch_crashes` and `C67_race`. -/
theorem C67_no_rejected_partial {param : Fin m → Slot α} (hp : ∀ i, Alloc (param i)) {jobs : List (Fin m → Job α)}
    (hj : ∀ job ∈ jobs, ∀ i c h, job i ≠ .rejected c h) {ss : List (St α m)} (h : Batches param jobs ss) :
    List.Forall₂ (fun job s => BatchOk job s.bad (results s)) jobs ss ∧
    ∀ job ∈ jobs, ∀ param' : Fin m → Slot α, (∀ i, Alloc (param' i)) → ∀ s, Reach job param' s → ∀ i, s.pc i ≠ .crash := by
  refine ⟨?_, fun job hmem param' hp' s hs => (inv_reach (hj job hmem) hp' hs).nocrash⟩
  induction h with
  | nil => exact .nil
  | @cons param job jobs s ss hr ho _ ih =>
    have hi := inv_reach (hj job List.mem_cons_self) hp hr
    refine .cons ?_ (ih hi.alloc fun job' hm => hj job' (List.mem_cons_of_mem _ hm))
    intro i
    have := hi.stop i (ho i)
    cases hjob : job i with
    | rejected c hc => exact absurd hjob (hj job List.mem_cons_self i c hc)
    | failed => rw [hjob] at this; exact this
    | image a =>
      rw [hjob] at this
      refine ⟨this.1, ?_⟩
      simp only [results, this.2, Slot.get]

/-! ### One thread -/

/-- What holds in a batch of one prime. -/
structure Inv1 (job : Fin 1 → Job α) (param : Fin 1 → Slot α) (s : St α 1) : Prop where
  start : s.pc 0 = .start → s.err = 0 ∧ s.param = param ∧ s.bad = fun _ => false
  rounds : s.pc 0 = .rounds → s.err = 0 ∧ s.param = param ∧ s.bad = fun _ => false
  test : s.pc 0 = .test → s.param = param ∧ (s.bad = fun _ => false) ∧ (0 < s.err ↔ ∃ c h, job 0 = .rejected c h)
  back : ∀ b, s.pc 0 = .back b → s.param = param ∧ (s.bad = fun _ => false) ∧
    (0 < s.err ↔ ∃ c h, job 0 = .rejected c h) ∧ (s.err = 0 → b = .full)
  crash : s.pc 0 = .crash → param 0 = .null ∧ ∀ c h, job 0 ≠ .rejected c h
  stop : s.pc 0 = .stop → match job 0 with
    | .rejected _ _ => s.bad 0 = true ∧ s.param 0 = .null
    | .failed => s.bad 0 = true ∧ Alloc (s.param 0) ∧ Alloc (param 0)
    | .image a => s.bad 0 = false ∧ s.param 0 = .val (some a) ∧ Alloc (param 0)

theorem inv1_reach {job : Fin 1 → Job α} {param : Fin 1 → Slot α} {s : St α 1} (h : Reach job param s) : Inv1 job param s := by
  unfold Reach at h
  induction h with
  | refl => constructor <;> simp [init]
  | @tail s s' _ hst ih =>
    obtain ⟨_, i, hi⟩ := hst
    obtain rfl : i = 0 := Subsingleton.elim _ _
    obtain ⟨i1, i2, i3, i4, i5, i6⟩ := ih
    unfold step at hi
    cases hpc : s.pc 0 with
    | start =>
      rw [hpc] at hi
      obtain rfl := Option.some.inj hi
      obtain ⟨_, a2, a3⟩ := i1 hpc
      constructor <;> simp [a2, a3]
    | rounds =>
      rw [hpc] at hi
      obtain rfl := Option.some.inj hi
      obtain ⟨a1, a2, a3⟩ := i2 hpc
      constructor <;> simp only [Function.update_self, reduceCtorEq, false_implies, implies_true, true_implies]
      refine ⟨a2, a3, ?_⟩
      cases hjob : job 0 with
      | rejected c hc => exact ⟨fun _ => ⟨c, hc, rfl⟩, fun _ => hc⟩
      | failed => simp [a1]
      | image a => simp [a1]
    | test =>
      rw [hpc] at hi
      obtain rfl := Option.some.inj hi
      obtain ⟨a1, a2, a3⟩ := i3 hpc
      constructor <;> simp only [Function.update_self, reduceCtorEq, false_implies, Pc.back.injEq]
      rintro b rfl
      refine ⟨a1, a2, a3, ?_⟩
      intro h0
      rw [if_neg (by omega : ¬ 0 < s.err)]
      cases hjob : job 0 with
      | rejected c hc =>
        have := a3.mpr ⟨c, hc, hjob⟩
        omega
      | failed => rfl
      | image a => rfl
    | back b =>
      rw [hpc] at hi
      obtain rfl := Option.some.inj hi
      obtain ⟨a1, a2, a3, a4⟩ := i4 b hpc
      split_ifs with h0
      · obtain ⟨c, hc, hjob⟩ := a3.mp h0
        constructor <;> simp [hjob]
      · have hb := a4 (by omega)
        subst hb
        have hno : ∀ c h, job 0 ≠ .rejected c h := fun c h he => h0 (a3.mpr ⟨c, h, he⟩)
        cases hjob : job 0 with
        | rejected c hc => exact absurd hjob (hno c hc)
        | failed =>
          simp only [useBasis, a1]
          cases hp : param 0 with
          | null => constructor <;> simp [hp, hjob]
          | val v => constructor <;> simp [hp, hjob, Alloc]
        | image a =>
          simp only [useBasis, a1]
          cases hp : param 0 with
          | null => constructor <;> simp [hp, hjob]
          | val v => constructor <;> simp [hp, hjob, Alloc]
    | stop => rw [hpc] at hi; simp at hi
    | crash => rw [hpc] at hi; simp at hi

/-- **C67, partial**: with one thread, every batch which starts with an allocated slot ends as it should, also if
the prime is rejected. -/
theorem C67_one_thread_partial {job : Fin 1 → Job α} {param : Fin 1 → Slot α} (hp : Alloc (param 0)) {s : St α 1}
    (h : Reach job param s) : s.pc 0 ≠ .crash ∧ (Over s → BatchOk job s.bad (results s)) := by
  have hi := inv1_reach h
  refine ⟨fun hc => hp (hi.crash hc).1, ?_⟩
  intro ho i
  obtain rfl : i = 0 := Subsingleton.elim _ _
  have := hi.stop (ho 0)
  cases hjob : job 0 with
  | rejected c hc => rw [hjob] at this; exact this.1
  | failed => rw [hjob] at this; exact this.1
  | image a =>
    rw [hjob] at this
    refine ⟨this.1, ?_⟩
    simp only [results, this.2.1, Slot.get]

theorem batch_ends (job : Fin 1 → Job α) (param : Fin 1 → Slot α) :
    ∃ s, Reach job param s ∧ (Over s ∨ s.pc 0 = .crash) := by
  have go : ∀ s : St α 1, (s.pc 0 ≠ .crash) → ∀ s', step job 0 s = some s' → Step job s s' := by
    intro s hc s' hs
    refine ⟨?_, 0, hs⟩
    intro i
    obtain rfl : i = 0 := Subsingleton.elim _ _
    exact hc
  obtain ⟨s1, e1, p1⟩ : ∃ s1, step job 0 (init param) = some s1 ∧ s1.pc 0 = .rounds :=
    ⟨_, rfl, by simp⟩
  obtain ⟨s2, e2, p2⟩ : ∃ s2, step job 0 s1 = some s2 ∧ s2.pc 0 = .test := by
    unfold step
    rw [p1]
    exact ⟨_, rfl, by simp⟩
  obtain ⟨s3, e3, b, p3⟩ : ∃ s3, step job 0 s2 = some s3 ∧ ∃ b, s3.pc 0 = .back b := by
    unfold step
    rw [p2]
    refine ⟨_, rfl, ?_⟩
    simp
  obtain ⟨s4, e4⟩ : ∃ s4, step job 0 s3 = some s4 := by
    unfold step
    rw [p3]
    exact ⟨_, rfl⟩
  have r3 : Reach job param s3 :=
    ((Relation.ReflTransGen.single (go _ (by simp [init]) _ e1)).tail (go _ (by simp [p1]) _ e2)).tail (go _ (by simp [p2]) _ e3)
  have r4 : Reach job param s4 := Relation.ReflTransGen.tail r3 (go _ (by simp [p3]) _ e4)
  refine ⟨s4, r4, ?_⟩
  have p4 : s4.pc 0 = .stop ∨ s4.pc 0 = .crash := by
    unfold step at e4
    rw [p3] at e4
    obtain rfl := Option.some.inj e4
    split_ifs with h0
    · left; simp
    · have hu : ∀ (v : Option α) (b : Bool), (useBasis v b 0 s3).pc 0 = .stop ∨ (useBasis v b 0 s3).pc 0 = .crash := by
        intro v b
        unfold useBasis
        cases s3.param 0 <;> simp
      cases b with
      | null => right; simp
      | incomplete => exact hu _ _
      | full =>
        cases job 0 with
        | image a => exact hu _ _
        | failed => exact hu _ _
        | rejected c hc => exact hu _ _
  rcases p4 with h | h
  · left
    intro i
    obtain rfl : i = 0 := Subsingleton.elim _ _
    exact h
  · exact Or.inr h

/-- The loop does not survive a rejected prime: already with one thread, after a rejected prime the next prime
which is not rejected makes the program use a null pointer, in every execution. -/
theorem C67_next_batch_crashes {param : Fin 1 → Slot α} {job job' : Fin 1 → Job α} (hrej : ∃ c h, job 0 = .rejected c h)
    (hok : ∀ c h, job' 0 ≠ .rejected c h) {s : St α 1} (h : Reach job param s) (ho : Over s) :
    (¬ ∃ s', Reach job' s.param s' ∧ Over s') ∧ ∃ s', Reach job' s.param s' ∧ s'.pc 0 = .crash := by
  obtain ⟨c, hc, hjob⟩ := hrej
  have h1 := (inv1_reach h).stop (ho 0)
  rw [hjob] at h1
  have hno : ¬ ∃ s', Reach job' s.param s' ∧ Over s' := by
    rintro ⟨s', hr, ho'⟩
    have h2 := (inv1_reach hr).stop (ho' 0)
    cases hjob' : job' 0 with
    | rejected c' hc' => exact hok c' hc' hjob'
    | failed => rw [hjob'] at h2; exact h2.2.2 h1.2
    | image a => rw [hjob'] at h2; exact h2.2.2 h1.2
  refine ⟨hno, ?_⟩
  obtain ⟨s', hr, h2 | h2⟩ := batch_ends job' s.param
  · exact absurd ⟨s', hr, h2⟩ hno
  · exact ⟨s', hr, h2⟩

/-! ### Two threads -/

/-- Run a schedule. -/
def runSched (job : Fin m → Job α) : List (Fin m) → St α m → Option (St α m)
  | [], s => some s
  | i :: l, s => if ∀ j, s.pc j ≠ .crash then (step job i s).bind (runSched job l) else none

theorem reach_sched {job : Fin m → Job α} {param : Fin m → Slot α} : ∀ (l : List (Fin m)) (s : St α m) {s' : St α m},
    Reach job param s → runSched job l s = some s' → Reach job param s'
  | [], s, s', h, e => by obtain rfl := Option.some.inj e; exact h
  | i :: l, s, s', h, e => by
    unfold runSched at e
    split_ifs at e with hc
    cases hs : step job i s with
    | none => rw [hs] at e; simp at e
    | some t =>
      rw [hs] at e
      exact reach_sched l t (Relation.ReflTransGen.tail h ⟨hc, i, hs⟩) e

/-- First prime rejected, second with an image. -/
def raceJob (a : α) : Fin 2 → Job α := ![.rejected 1 one_pos, .image a]

/-- The error variable is shared, so the outcome for a batch of two primes, one of them rejected, depends on the
schedule: the program may use a null pointer, or take the unfinished basis of the rejected prime, or drop the good
prime. -/
theorem C67_race (a : α) {param : Fin 2 → Slot α} (hp : ∀ i, Alloc (param i)) :
    (∃ s, Reach (raceJob a) param s ∧ s.pc 0 = .crash) ∧
    (∃ s, Reach (raceJob a) param s ∧ Over s ∧ s.bad 0 = false) ∧
    ∃ s, Reach (raceJob a) param s ∧ Over s ∧ s.bad 1 = true ∧ s.param 1 = .null := by
  obtain ⟨v, hv⟩ : ∃ v, param 0 = .val v := by
    have := hp 0
    cases h : param 0 with
    | null => exact absurd h this
    | val v => exact ⟨v, rfl⟩
  obtain ⟨w, hw⟩ : ∃ w, param 1 = .val w := by
    have := hp 1
    cases h : param 1 with
    | null => exact absurd h this
    | val v => exact ⟨v, rfl⟩
  obtain rfl : param = ![.val v, .val w] := by
    funext i; fin_cases i
    · exact hv
    · exact hw
  refine ⟨?_, ?_, ?_⟩
  · exact ⟨_, reach_sched [0, 0, 0, 1, 0] _ .refl (by rfl), by rfl⟩
  · refine ⟨_, reach_sched [0, 0, 1, 0, 0, 1, 1, 1] _ .refl (by rfl), ?_, by rfl⟩
    intro i; fin_cases i <;> rfl
  · refine ⟨_, reach_sched [1, 1, 0, 0, 0, 0, 1, 1] _ .refl (by rfl), ?_, by rfl, by rfl⟩
    intro i; fin_cases i <;> rfl

/-! ### The hypotheses are met -/

/-- Two batches of two primes, three of them with an image. -/
def exJobs : List (Fin 2 → Job Nat) := [![.image 5, .image 7], ![.failed, .image 9]]

def exParam : Fin 2 → Slot Nat := fun _ => .val none

example : ∃ ss, Batches exParam exJobs ss ∧ ss.map results = [![some 5, some 7], ![none, some 9]] := by
  refine ⟨_, .cons (reach_sched [0, 1, 1, 0, 1, 0, 0, 1] _ .refl (by rfl)) ?_
    (.cons (reach_sched [1, 1, 1, 1, 0, 0, 0, 0] _ .refl (by rfl)) ?_ (.nil _)), ?_⟩
  · intro i; fin_cases i <;> rfl
  · intro i; fin_cases i <;> rfl
  · simp only [List.map_cons, List.map_nil, List.cons.injEq, and_true]
    constructor <;> (funext i; fin_cases i <;> rfl)

example : ∀ job ∈ exJobs, ∀ i c h, job i ≠ .rejected c h := by
  intro job hj i c h
  simp only [exJobs, List.mem_cons, List.not_mem_nil, or_false] at hj
  rcases hj with rfl | rfl <;> fin_cases i <;> simp

example : ∃ s, Reach (fun _ : Fin 1 => (.rejected 2 two_pos : Job Nat)) (fun _ => .val none) s ∧ Over s := by
  refine ⟨_, reach_sched [0, 0, 0, 0] _ .refl (by rfl), ?_⟩
  intro i; fin_cases i; rfl

end Verif.Props.Batch67
