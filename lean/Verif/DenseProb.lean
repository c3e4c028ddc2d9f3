import Verif.DenseLA
import Verif.ProbLA

/-! Model of `probabilistic_sparse_dense_echelon_form_ff_32`, la_ff_32.c 3678-3820 (option 42): as
`Verif.ProbLA`, with new pivots stored as dense rows.  Blocks and combinations are the ones of `Verif.ProbLA`
(la_ff_32.c 3699-3702, 3716-3757 repeat 2345-2347, 2363-2403), the random multipliers are `rand() % fc`. -/

namespace Verif.DenseProb
open Verif.RowReduce Verif.Normalize Verif.Echelon Verif.ProbLA Verif.DenseLA

/-- Where the reduction starts again, la_ff_32.c 1931 and 1853, 1887: `*pc = np - ncl` is an index of the dense
array but is used as the first column of step 1; step 2 always starts at `ncl`. -/
def back42 (ncl : Nat) (c : Nat) : Nat := min (c - ncl) ncl

/-- State of the thread of a block, see `ProbLA.BTh`. -/
inductive DBTh where
  | idle (b : Nat) (last : Option (Nat → Nat))
  | work (b : Nat) (mull : Nat → Nat) (x : DTh)
  | fin (last : Option (Nat → Nat))

/-- One step of the thread of a block, la_ff_32.c 3719-3779. -/
def dblkStep (P : Echelon.Par) (blk : List Row) (mull : Nat → Nat) (pivs : Nat → Option Row) :
    DBTh → Option (DBTh × (Nat → Option Row))
  | .idle b last =>
    if b < blk.length then (combine P.p blk mull).map fun dr =>
      (.work b mull (.red none 0 { dr := dr, np := none, k := 0 }), pivs)
    else some (.fin last, pivs)
  | .work _ mull .zero => some (.idle (blk.length + 1) (some mull), pivs)
  | .work b mull .won => some (.idle (b + 1) (some mull), pivs)
  | .work b mull x => (dthStep P (back42 P.ncl) pivs x).map fun q => (.work b mull q.1, q.2)
  | .fin last => some (.fin last, pivs)

def DBTh.finished : DBTh → Bool
  | .fin _ => true
  | _ => false

/-- Shared pivots, one thread per block. -/
structure DPConf (nb : Nat) where
  pivs : Nat → Option Row
  th : Fin nb → DBTh

/-- Block `i` (not finished) makes a step; if it draws random numbers, any values below `N` (`N = fc`). -/
inductive DPStep (P : Echelon.Par) (N : Nat) {nb : Nat} (blk : Fin nb → List Row) : DPConf nb → DPConf nb → Prop
  | mk (c : DPConf nb) (i : Fin nb) (mull : Nat → Nat) (x : DBTh) (pivs' : Nat → Option Row) :
      (c.th i).finished = false → (∀ k, mull k < N) → dblkStep P (blk i) mull c.pivs (c.th i) = some (x, pivs') →
      DPStep P N blk c { pivs := pivs', th := Function.update c.th i x }

/-- Executions: any interleaving, any random numbers. -/
inductive DPExec (P : Echelon.Par) (N : Nat) {nb : Nat} (blk : Fin nb → List Row) :
    Nat → DPConf nb → DPConf nb → Prop
  | refl (c : DPConf nb) : DPExec P N blk 0 c c
  | step {m : Nat} {c c' c'' : DPConf nb} : DPExec P N blk m c c' → DPStep P N blk c' c'' →
      DPExec P N blk (m + 1) c c''

/-- The start: known pivots, all blocks at the head of their loop. -/
def dprobInit (pivs0 : Nat → Option Row) (nb : Nat) : DPConf nb := { pivs := pivs0, th := fun _ => .idle 0 none }

/-! ### Invariants -/

/-- Invariant of the thread of a block. -/
def DBOk (P : Echelon.Par) (Ok : Nat → (Nat → Int) → Prop) (pivs0 pivs : Nat → Option Row) (blk : List Row) :
    DBTh → Prop
  | .idle b last => (b ≤ blk.length ∧ b ≤ covered P.p blk pivs) ∨
      (blk.length < b ∧ ∃ m, last = some m ∧ combv P.p blk m ∈ allSpan P.p pivs)
  | .work b mull x => b < blk.length ∧ DThOk P Ok pivs0 pivs (- combv P.p blk mull) x ∧
      (x ≠ .won → b ≤ covered P.p blk pivs) ∧ (x = .won → b + 1 ≤ covered P.p blk pivs)
  | .fin last => blkSpan P.p blk ≤ allSpan P.p pivs ∨ ∃ m, last = some m ∧ combv P.p blk m ∈ allSpan P.p pivs

theorem DBOk.mono {P : Echelon.Par} [Fact P.p.Prime] {Ok : Nat → (Nat → Int) → Prop}
    {pivs0 pivs pivs' : Nat → Option Row} {blk : List Row}
    (h : ∀ i r, pivs i = some r → pivs' i = some r) :
    ∀ {x : DBTh}, DBOk P Ok pivs0 pivs blk x → DBOk P Ok pivs0 pivs' blk x
  | .idle _ _, hx => hx.imp (fun a => ⟨a.1, a.2.trans (covered_mono h)⟩)
      (fun ⟨hb, m, e, a⟩ => ⟨hb, m, e, allSpan_mono h a⟩)
  | .work _ _ _, ⟨a1, a2, a3, a4⟩ => ⟨a1, a2.mono h, fun hx => (a3 hx).trans (covered_mono h),
      fun hx => (a4 hx).trans (covered_mono h)⟩
  | .fin _, hx => hx.imp (fun a => a.trans (allSpan_mono h)) (fun ⟨m, e, a⟩ => ⟨m, e, allSpan_mono h a⟩)

theorem back42_ok {P : Echelon.Par} {pivs0 : Nat → Option Row} (hcl : ∀ c, c < P.ncl → pivs0 c ≠ none) :
    BackOk P (back42 P.ncl) pivs0 := by
  intro c _ _
  refine ⟨?_, fun j _ hj => hcl j hj⟩
  unfold back42
  omega

/-- When compare-and-swap succeeds the row was not in the span of the pivots. -/
theorem dnot_mem_of_won {P : Echelon.Par} [Fact P.p.Prime] {Ok : Nat → (Nat → Int) → Prop} {back : Nat → Nat}
    {pivs0 pivs pivs' : Nat → Option Row} {T : Submodule (ZMod P.p) (Nat → ZMod P.p)} {v : Nat → ZMod P.p}
    (hpiv : DPivOk P pivs0 pivs T) {x : DTh} (hx : DThOk P Ok pivs0 pivs v x) (hf : x.finished = false)
    (he : dthStep P back pivs x = some (.won, pivs')) : v ∉ allSpan P.p pivs := by
  rcases x with ⟨lost, i, s⟩ | ⟨lost, dr, c, r⟩ | _ | _
  · exfalso
    simp only [dthStep] at he
    split_ifs at he with h1
    · rw [Option.map_eq_some_iff] at he
      obtain ⟨_, _, h⟩ := he
      exact absurd (congrArg Prod.fst h) (by simp)
    · rw [Option.map_eq_some_iff] at he
      obtain ⟨y, _, h⟩ := he
      rcases y with _ | y
      · exact absurd (congrArg Prod.fst h) (by simp)
      · exact absurd (congrArg Prod.fst h) (by simp)
  · obtain ⟨h1, h2, h3, h4, h5, h6, h7, h8, u, hu, h9⟩ := hx
    intro hv
    have hvd : vec P.p dr ∈ allSpan P.p pivs := by
      have := Submodule.add_mem _ h1 hv
      rwa [sub_add_cancel] at this
    have hr : rvec P.p r ∈ allSpan P.p pivs := by rw [h9]; exact Submodule.smul_mem _ _ hvd
    have hp := lead_is_pivot hpiv.row hr (l := c) (fun c' hc' => h5.below hc')
      (by rw [h5.at_head]; exact one_ne_zero)
    simp only [dthStep] at he
    rcases hpc : pivs c with _ | q
    · exact hp hpc
    · rw [hpc] at he
      exact absurd (congrArg Prod.fst (Option.some.inj he)) (by simp)
  · simp [DTh.finished] at hf
  · simp [DTh.finished] at hf

/-- Bound on the steps of one combination. -/
def dpassMax (P : Echelon.Par) : Nat := (P.ncols + 1) * (P.ncols + 3) + P.ncols + 5

/-- Bound on the number of steps the thread of a block can still make. -/
def dbmu (P : Echelon.Par) (blk : List Row) : DBTh → Nat
  | .idle b _ => (blk.length - b) * dpassMax P + 1
  | .work b _ x => (blk.length - b - 1) * dpassMax P + dmu P x + 2
  | .fin _ => 0

theorem dblkStep_ok {P : Echelon.Par} {Ok : Nat → (Nat → Int) → Prop} (hP : DParOk P Ok) {N : Nat}
    (hD : DrawOk P Ok N) {pivs0 pivs : Nat → Option Row} {T : Submodule (ZMod P.p) (Nat → ZMod P.p)}
    {blk : List Row} (hr : ∀ r ∈ blk, ∀ t ∈ r, t.1 < P.ncols ∧ t.2 < P.p) (hT : blkSpan P.p blk ≤ T)
    (hcl : ∀ c, c < P.ncl → pivs0 c ≠ none)
    (hpiv : DPivOk P pivs0 pivs T) {x : DBTh} (hx : DBOk P Ok pivs0 pivs blk x) (hf : x.finished = false)
    {mull : Nat → Nat} (hm : ∀ k, mull k < N) :
    ∃ x' pivs', dblkStep P blk mull pivs x = some (x', pivs') ∧ DBOk P Ok pivs0 pivs' blk x' ∧
      DPivOk P pivs0 pivs' T ∧ (∀ i r, pivs i = some r → pivs' i = some r) ∧ dbmu P blk x' < dbmu P blk x := by
  have hpf : Fact P.p.Prime := ⟨hP.prime⟩
  rcases x with ⟨b, last⟩ | ⟨b, mul, x⟩ | last
  · by_cases hb : b < blk.length
    · obtain ⟨dr, e, a1, a2, a3⟩ := combine_spec (ncols := P.ncols) hD.sq hP.prime.pos
        (fun k => lt_of_lt_of_le (hm k) hD.small) hr
      refine ⟨.work b mull (.red none 0 { dr := dr, np := none, k := 0 }), pivs, ?_, ⟨hb, ?_, ?_, ?_⟩, hpiv,
        fun _ _ h => h, ?_⟩
      · simp only [dblkStep]; rw [if_pos hb, e]; rfl
      · refine ⟨Nat.zero_le _, hD.ok dr a1, ?_, a2, fun c hc => absurd hc (Nat.not_lt_zero c),
          Or.inl ⟨rfl, rfl, fun c hc => absurd hc (Nat.not_lt_zero c)⟩, fun l hl => by simp at hl, fun c _ hc => hcl c hc⟩
        simp only [a3, sub_self]; exact Submodule.zero_mem _
      · intro _
        rcases hx with h | h
        · exact h.2
        · exact absurd h.1 (by omega)
      · intro h; exact absurd h (by simp)
      · simp only [dbmu, dmu]
        have h1 : (blk.length - b) * dpassMax P = (blk.length - b - 1) * dpassMax P + dpassMax P := by
          rw [← Nat.succ_mul]; congr 1; omega
        rw [h1]
        unfold dpassMax
        simp only [drank, Nat.sub_zero]
        omega
    · refine ⟨.fin last, pivs, ?_, ?_, hpiv, fun _ _ h => h, ?_⟩
      · simp only [dblkStep]; rw [if_neg hb]
      · rcases hx with h | h
        · exact Or.inl (covered_full (le_trans (by omega) h.2))
        · exact Or.inr h.2
      · simp only [dbmu]; omega
  · obtain ⟨hb, h1, h2, h3⟩ := hx
    by_cases hfin : x.finished = false
    · have hv : - combv P.p blk mul ∈ T := Submodule.neg_mem _ (hT (combv_mem_blkSpan _ _ _))
      obtain ⟨x', pivs', e, b1, b2, b3, b4⟩ := dthStep_ok hP (back42_ok hcl) hv hpiv h1 hfin
      have hs : dblkStep P blk mull pivs (.work b mul x) = some (.work b mul x', pivs') := by
        rcases x with _ | _ | _ | _
        · simp only [dblkStep]; rw [e]; rfl
        · simp only [dblkStep]; rw [e]; rfl
        · simp [DTh.finished] at hfin
        · simp [DTh.finished] at hfin
      have hxw : x ≠ .won := fun h => by subst h; simp [DTh.finished] at hfin
      refine ⟨.work b mul x', pivs', hs, ⟨hb, b1, fun _ => (h2 hxw).trans (covered_mono b3), ?_⟩, b2, b3, ?_⟩
      · intro hw
        subst hw
        have hn := dnot_mem_of_won hpiv h1 hfin e
        have hin : - combv P.p blk mul ∈ allSpan P.p pivs' := b1
        have := covered_lt b3 (Submodule.neg_mem _ (combv_mem_blkSpan P.p blk mul)) hn hin
        have := h2 hxw
        omega
      · simp only [dbmu]; omega
    · rcases x with _ | _ | _ | _
      · simp [DTh.finished] at hfin
      · simp [DTh.finished] at hfin
      · refine ⟨.idle (blk.length + 1) (some mul), pivs, rfl, ?_, hpiv, fun _ _ h => h, ?_⟩
        · exact Or.inr ⟨Nat.lt_succ_self _, mul, rfl, (Submodule.neg_mem_iff _).mp h1⟩
        · simp only [dbmu, dmu]
          have : blk.length - (blk.length + 1) = 0 := by omega
          rw [this]; omega
      · refine ⟨.idle (b + 1) (some mul), pivs, rfl, ?_, hpiv, fun _ _ h => h, ?_⟩
        · exact Or.inl ⟨hb, h3 rfl⟩
        · simp only [dbmu, dmu]
          rw [Nat.sub_sub]; omega
  · simp [DBTh.finished] at hf

/-! ### All executions -/

/-- Invariant of a configuration. -/
def DPConfOk (P : Echelon.Par) (Ok : Nat → (Nat → Int) → Prop) (pivs0 : Nat → Option Row)
    (T : Submodule (ZMod P.p) (Nat → ZMod P.p)) {nb : Nat} (blk : Fin nb → List Row) (c : DPConf nb) : Prop :=
  DPivOk P pivs0 c.pivs T ∧ ∀ i, DBOk P Ok pivs0 c.pivs (blk i) (c.th i)

theorem dpstep_ok {P : Echelon.Par} {Ok : Nat → (Nat → Int) → Prop} (hP : DParOk P Ok) {N : Nat}
    (hD : DrawOk P Ok N) {pivs0 : Nat → Option Row} {T : Submodule (ZMod P.p) (Nat → ZMod P.p)} {nb : Nat}
    {blk : Fin nb → List Row} (hr : ∀ i, ∀ r ∈ blk i, ∀ t ∈ r, t.1 < P.ncols ∧ t.2 < P.p)
    (hT : ∀ i, blkSpan P.p (blk i) ≤ T) (hcl : ∀ c, c < P.ncl → pivs0 c ≠ none) {c c' : DPConf nb}
    (h : DPConfOk P Ok pivs0 T blk c) (hs : DPStep P N blk c c') :
    DPConfOk P Ok pivs0 T blk c' ∧ (∑ i, dbmu P (blk i) (c'.th i)) < ∑ i, dbmu P (blk i) (c.th i) := by
  have hpf : Fact P.p.Prime := ⟨hP.prime⟩
  rcases hs with ⟨t, mull, x, pivs', hf, hm, e⟩
  obtain ⟨x', pivs'', e', a1, a2, a3, a4⟩ := dblkStep_ok hP hD (hr t) (hT t) hcl h.1 (h.2 t) hf hm
  rw [e] at e'
  obtain ⟨hx, hp⟩ := Prod.mk.inj (Option.some.inj e')
  rw [← hx] at a1 a4
  rw [← hp] at a1 a2 a3
  refine ⟨⟨a2, fun t' => ?_⟩, ?_⟩
  · by_cases ht : t' = t
    · subst ht; simp only [Function.update_self]; exact a1
    · simp only [Function.update_of_ne ht]; exact (h.2 t').mono a3
  · apply Finset.sum_lt_sum
    · intro t' _
      by_cases ht : t' = t
      · subst ht; simp only [Function.update_self]; exact a4.le
      · simp only [Function.update_of_ne ht]; exact le_refl _
    · exact ⟨t, Finset.mem_univ _, by simp only [Function.update_self]; exact a4⟩

theorem dpexec_ok {P : Echelon.Par} {Ok : Nat → (Nat → Int) → Prop} (hP : DParOk P Ok) {N : Nat}
    (hD : DrawOk P Ok N) {pivs0 : Nat → Option Row} {T : Submodule (ZMod P.p) (Nat → ZMod P.p)} {nb : Nat}
    {blk : Fin nb → List Row} (hr : ∀ i, ∀ r ∈ blk i, ∀ t ∈ r, t.1 < P.ncols ∧ t.2 < P.p)
    (hT : ∀ i, blkSpan P.p (blk i) ≤ T) (hcl : ∀ c, c < P.ncl → pivs0 c ≠ none) {c c' : DPConf nb} {m : Nat}
    (h : DPConfOk P Ok pivs0 T blk c) (hs : DPExec P N blk m c c') :
    DPConfOk P Ok pivs0 T blk c' ∧ m + (∑ i, dbmu P (blk i) (c'.th i)) ≤ ∑ i, dbmu P (blk i) (c.th i) := by
  induction hs with
  | refl => exact ⟨h, by omega⟩
  | step _ hs ih =>
    obtain ⟨b1, b2⟩ := ih h
    obtain ⟨a1, a2⟩ := dpstep_ok hP hD hr hT hcl b1 hs
    exact ⟨a1, by omega⟩

theorem dprobInit_ok {P : Echelon.Par} {Ok : Nat → (Nat → Int) → Prop} {pivs0 : Nat → Option Row}
    (hpiv : ∀ i r, pivs0 i = some r → PivRow P.p P.ncols i r) {T : Submodule (ZMod P.p) (Nat → ZMod P.p)}
    (hT : allSpan P.p pivs0 ≤ T) {nb : Nat} (blk : Fin nb → List Row) :
    DPConfOk P Ok pivs0 T blk (dprobInit pivs0 nb) := by
  refine ⟨⟨hpiv, fun _ _ h => h, hT, fun i r h h' => ?_⟩, fun i => Or.inl ⟨Nat.zero_le _, Nat.zero_le _⟩⟩
  simp only [dprobInit] at h
  rw [h] at h'
  exact absurd h' (by simp)

end Verif.DenseProb
