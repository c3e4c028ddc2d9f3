import Mathlib.Logic.Function.Basic
import Mathlib.Logic.Relation
import Verif.Spec.Batch

/-! Model of the parallel loop over a batch of primes, `secondary_modular_steps`, msolve.c 1664-1807, with the error
variable shared by all threads, and of the sequence of batches, msolve.c 2258-2430.

Simplifications: computations modulo one prime enter by their outcome (`Spec.Job`); there is one prime for each
thread (`nr_primes = nr_threads`, msolve.c 1932); without lifting of the multiplication matrix (the default); reads
and writes of the shared variable are atomic and sequentially consistent (in C they are a data race, hence undefined,
and this is the most favourable reading); a wrong number of elements and a wrong staircase are left out, they cannot
happen after a run which was accepted (C66). -/

namespace Verif.Batch

open Verif.Spec

/-- The basis returned by `core_f4`, f4.c 667-733: none, complete, or what was there when the prime was found to be
bad. -/
inductive Bs where
  | null
  | full
  | incomplete
deriving DecidableEq

/-- Where a thread is. -/
inductive Pc where
  /-- before `*errp = 0`, f4.c 695 -/
  | start
  /-- in the rounds, f4.c 696-712 -/
  | rounds
  /-- before the test f4.c 713 -/
  | test
  /-- back from `core_gba`, before the test msolve.c 1725 -/
  | back (b : Bs)
  /-- end of the iteration -/
  | stop
  /-- a null pointer was used -/
  | crash
deriving DecidableEq

/-- `nmod_params[i]`: a null pointer, or allocated, with an image or with anything else. -/
inductive Slot (α : Type) where
  | null
  | val (v : Option α)

/-- The image in a slot. -/
def Slot.get {α : Type} : Slot α → Option α
  | .null => none
  | .val v => v

/-- State of the parallel loop. -/
structure St (α : Type) (m : Nat) where
  err : Nat
  pc : Fin m → Pc
  param : Fin m → Slot α
  bad : Fin m → Bool

variable {α : Type} {m : Nat}

/-- Use of a good basis, msolve.c 1733-1802: `nmod_fglm_compute_apply_trace_data` starts with a write through
`param` (fglm_core.c 1747, data_fglm.c 218). -/
def useBasis (v : Option α) (isBad : Bool) (i : Fin m) (s : St α m) : St α m :=
  match s.param i with
  | .null => { s with pc := Function.update s.pc i .crash }
  | .val _ => { s with pc := Function.update s.pc i .stop, param := Function.update s.param i (.val v),
                       bad := Function.update s.bad i isBad }

/-- Next step of thread `i`. -/
def step (job : Fin m → Job α) (i : Fin m) (s : St α m) : Option (St α m) :=
  match s.pc i with
  | .start => some { s with err := 0, pc := Function.update s.pc i .rounds }
  | .rounds => some
    { s with
      -- f4.c 431-460: only if the prime is found to be bad
      err := match job i with
        | .rejected c _ => c
        | _ => s.err
      pc := Function.update s.pc i .test }
  | .test => some
    { s with
      -- f4.c 713-732
      pc := Function.update s.pc i (.back (if 0 < s.err then .null else
        match job i with
        | .rejected _ _ => .incomplete
        | _ => .full)) }
  | .back b => some <|
    -- msolve.c 1725-1733
    if 0 < s.err then
      { s with pc := Function.update s.pc i .stop, param := Function.update s.param i .null,
               bad := Function.update s.bad i true }
    else match b with
      | .null => { s with pc := Function.update s.pc i .crash }
      | .incomplete => useBasis none false i s
      | .full => match job i with
        | .image a => useBasis (some a) false i s
        | _ => useBasis none true i s
  | .stop => none
  | .crash => none

/-- One step of any thread, unless the program has crashed. -/
def Step (job : Fin m → Job α) (s s' : St α m) : Prop :=
  (∀ i, s.pc i ≠ .crash) ∧ ∃ i, step job i s = some s'

/-- Start of a batch, msolve.c 1706-1716. -/
def init (param : Fin m → Slot α) : St α m := { err := 0, pc := fun _ => .start, param := param, bad := fun _ => false }

/-- States of a batch. -/
def Reach (job : Fin m → Job α) (param : Fin m → Slot α) : St α m → Prop := Relation.ReflTransGen (Step job) (init param)

/-- The batch is over. -/
def Over (s : St α m) : Prop := ∀ i, s.pc i = .stop

/-- Results of the slots, read by msolve.c 2388-2419 where `bad_primes[i] == 0`. -/
def results (s : St α m) : Fin m → Option α := fun i => (s.param i).get

/-- A sequence of batches from slots `param`: the states at the ends of the batches. -/
inductive Batches : (Fin m → Slot α) → List (Fin m → Job α) → List (St α m) → Prop
  | nil (param : Fin m → Slot α) : Batches param [] []
  | cons {param : Fin m → Slot α} {job : Fin m → Job α} {jobs : List (Fin m → Job α)} {s : St α m} {ss : List (St α m)} :
      Reach job param s → Over s → Batches s.param jobs ss → Batches param (job :: jobs) (s :: ss)

end Verif.Batch
