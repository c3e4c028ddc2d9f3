import Verif.Echelon
import Mathlib.LinearAlgebra.FiniteDimensional.Lemmas
import Mathlib.LinearAlgebra.Dimension.Finite
import Mathlib.Data.Fintype.Pi
import Mathlib.Data.Fintype.Card
import Mathlib.Data.Nat.Sqrt
import Mathlib.Algebra.BigOperators.Fin

/-! Model of `probabilistic_sparse_reduced_echelon_form_ff_32`, la_ff_32.c 2299-2499: the rows are cut into
blocks; every block is reduced by random combinations of its rows until one of them reduces to zero. -/

namespace Verif.ProbLA
open Verif.RowReduce Verif.Normalize Verif.Echelon

/-! ### Blocks -/

/-- Number of blocks, la_ff_32.c 2345: `nb = (len_t)(floor(sqrt(nrl/3)))+1`.  The square root is computed in
double precision in the code, exactly in the model (`nrl/3 < 2^31`). -/
def nBlocks (nrl : Nat) : Nat := Nat.sqrt (nrl / 3) + 1

/-- Rows per block, la_ff_32.c 2346-2347. -/
def rowsPerBlock (nrl : Nat) : Nat := nrl / nBlocks nrl + (if nrl % nBlocks nrl = 0 then 0 else 1)

/-- The rows of block `i`, from `i*rpb` to `nbl = min((i+1)*rpb, nrl)`, la_ff_32.c 2363-2364, 2383.  The
difference `nrbl = nbl - i*rpb` of the code is signed; it is not negative, `block_start_le`. -/
def blockRows (rows : List Row) (i : Nat) : List Row :=
  (rows.take (min ((i + 1) * rowsPerBlock rows.length) rows.length)).drop (i * rowsPerBlock rows.length)

/-! ### The random combination -/

/-- The dense row made of the rows of a block and random multipliers, la_ff_32.c 2376-2403:
`drl[ds[l]] -= mull[k] * cfs[l]; drl[ds[l]] += (drl[ds[l]] >> 63) & mod2;` for all rows of the block. -/
def combine (p : Nat) (blk : List Row) (mull : Nat → Nat) : Option (Nat → Int) :=
  (List.ofFn fun k : Fin blk.length => (blk.get k, mull k)).foldlM
    (fun dr q => elim31 p (q.2 : Int) q.1 dr) (fun _ => 0)

/-- The vector of the combination (up to sign). -/
def combv (p : Nat) (blk : List Row) (mull : Nat → Nat) : Nat → ZMod p :=
  ∑ k : Fin blk.length, ((mull k : Nat) : ZMod p) • rvec p (blk.get k)

/-! ### The threads -/

/-- State of the thread of a block.  `idle b`: at the head of `while (bctr < nrbl)` with `bctr = b`;
`work b`: inside, `x` is the state of the reduction of the combination; `fin`: block is finished.  `last` /
`mull` is the last vector of random multipliers (a ghost at `idle` and `fin`). -/
inductive BTh where
  | idle (b : Nat) (last : Option (Nat → Nat))
  | work (b : Nat) (mull : Nat → Nat) (x : Th)
  | fin (last : Option (Nat → Nat))

/-- One step of the thread of a block, la_ff_32.c 2365-2435; `mull` are the values drawn if a new
combination is started.  `nrbl = 0` and `bctr ≥ nrbl` both end the block.  The reduction starts at column 0:
`sc = sc < ds[0] ? sc : ds[0]` with `sc = 0`. -/
def blkStep (P : Echelon.Par) (blk : List Row) (mull : Nat → Nat) (pivs : Nat → Option Row) :
    BTh → Option (BTh × (Nat → Option Row))
  | .idle b last =>
    if b < blk.length then (combine P.p blk mull).map fun dr =>
      (.work b mull (.red 0 0 true { dr := dr, np := none, k := 0 }), pivs)
    else some (.fin last, pivs)
  | .work _ mull .zero => some (.idle (blk.length + 1) (some mull), pivs)
  | .work b mull .won => some (.idle (b + 1) (some mull), pivs)
  | .work b mull x => (thStep P pivs x).map fun q => (.work b mull q.1, q.2)
  | .fin last => some (.fin last, pivs)

def BTh.finished : BTh → Bool
  | .fin _ => true
  | _ => false

/-- Shared pivots, one thread per block. -/
structure PConf (nb : Nat) where
  pivs : Nat → Option Row
  th : Fin nb → BTh

/-- Block `i` (not finished) makes a step; if it draws random numbers, any values below `N` (the mask of the
code gives `N = 2^15`). -/
inductive PStep (P : Echelon.Par) (N : Nat) {nb : Nat} (blk : Fin nb → List Row) : PConf nb → PConf nb → Prop
  | mk (c : PConf nb) (i : Fin nb) (mull : Nat → Nat) (x : BTh) (pivs' : Nat → Option Row) :
      (c.th i).finished = false → (∀ k, mull k < N) → blkStep P (blk i) mull c.pivs (c.th i) = some (x, pivs') →
      PStep P N blk c { pivs := pivs', th := Function.update c.th i x }

/-- Executions: any interleaving, any random numbers. -/
inductive PExec (P : Echelon.Par) (N : Nat) {nb : Nat} (blk : Fin nb → List Row) :
    Nat → PConf nb → PConf nb → Prop
  | refl (c : PConf nb) : PExec P N blk 0 c c
  | step {m : Nat} {c c' c'' : PConf nb} : PExec P N blk m c c' → PStep P N blk c' c'' →
      PExec P N blk (m + 1) c c''

/-- The start: known pivots, all blocks at the head of their loop. -/
def probInit (pivs0 : Nat → Option Row) (nb : Nat) : PConf nb := { pivs := pivs0, th := fun _ => .idle 0 none }

/-! ### Blocks cover the rows -/

theorem nBlocks_pos (n : Nat) : 0 < nBlocks n := Nat.succ_pos _

theorem rpb_mul_ge (n : Nat) : n ≤ nBlocks n * rowsPerBlock n := by
  unfold rowsPerBlock
  have h := Nat.div_add_mod n (nBlocks n)
  have h2 := Nat.mod_lt n (nBlocks_pos n)
  split_ifs with h0
  · rw [Nat.add_zero]; omega
  · rw [Nat.mul_add, Nat.mul_one]; omega

/-- No block starts behind the last row: `nrbl` is not negative. -/
theorem block_start_le (n i : Nat) (hi : i < nBlocks n) : i * rowsPerBlock n ≤ n := by
  have hs := Nat.sqrt_le (n / 3)
  have hdm := Nat.div_add_mod n (nBlocks n)
  unfold rowsPerBlock
  have h3 : n / 3 * 3 ≤ n := Nat.div_mul_le_self n 3
  generalize hq : n / nBlocks n = q at *
  generalize hr : n % nBlocks n = r at *
  have hnb : nBlocks n = Nat.sqrt (n / 3) + 1 := rfl
  rw [hnb] at hdm hi
  generalize Nat.sqrt (n / 3) = s at *
  generalize n / 3 = m at *
  have hi' : i ≤ s := by omega
  split_ifs with h0
  · rw [Nat.add_zero]
    have := Nat.mul_le_mul_right q hi'
    nlinarith
  · have hsq : s ≤ q ∨ s = 0 := by
      by_contra hcon
      push Not at hcon
      obtain ⟨h1, h2⟩ := hcon
      have hrlt : r < s + 1 := by
        rw [← hr, hnb]; exact Nat.mod_lt _ (Nat.succ_pos _)
      nlinarith
    rcases hsq with h | h
    · have := Nat.mul_le_mul_right (q + 1) hi'
      nlinarith
    · subst h
      have : i = 0 := by omega
      subst this
      simp

theorem mem_block {rows : List Row} {r : Row} (hr : r ∈ rows) :
    ∃ i, i < nBlocks rows.length ∧ r ∈ blockRows rows i := by
  obtain ⟨j, hj, rfl⟩ := List.mem_iff_getElem.mp hr
  have hge := rpb_mul_ge rows.length
  have hpos : 0 < rowsPerBlock rows.length := by
    by_contra h0
    have : rowsPerBlock rows.length = 0 := by omega
    rw [this] at hge
    omega
  have hi : j / rowsPerBlock rows.length < nBlocks rows.length :=
    Nat.div_lt_of_lt_mul (lt_of_lt_of_le hj (by rw [Nat.mul_comm]; exact hge))
  refine ⟨j / rowsPerBlock rows.length, hi, ?_⟩
  have h1 := Nat.div_add_mod j (rowsPerBlock rows.length)
  have h2 := Nat.mod_lt j hpos
  set d := j / rowsPerBlock rows.length
  set w := rowsPerBlock rows.length
  unfold blockRows
  rw [List.mem_iff_getElem]
  refine ⟨j - d * w, ?_, ?_⟩
  · rw [List.length_drop, List.length_take]
    have : j < (d + 1) * w := by rw [Nat.add_mul, Nat.one_mul, Nat.mul_comm d w]; omega
    have h5 : d * w ≤ j := by rw [Nat.mul_comm]; omega
    change j - d * w < min (min ((d + 1) * w) rows.length) rows.length - d * w
    rw [Nat.min_eq_left (Nat.min_le_right _ _)]
    have h6 : j < min ((d + 1) * w) rows.length := lt_min this hj
    omega
  · rw [List.getElem_drop, List.getElem_take]
    congr 1
    have h5 : d * w ≤ j := by rw [Nat.mul_comm]; omega
    change d * w + (j - d * w) = j
    omega

theorem mem_of_block {rows : List Row} {i : Nat} {r : Row} (h : r ∈ blockRows rows i) : r ∈ rows :=
  List.mem_of_mem_take (List.mem_of_mem_drop h)

/-! ### The combination -/

theorem foldlM_combine {p ncols : Nat} (hp : (p : Int) * p < 2 ^ 62) :
    ∀ (l : List (Row × Nat)) (dr : Nat → Int), (∀ q ∈ l, q.2 < p ∧ ∀ t ∈ q.1, t.1 < ncols ∧ t.2 < p) →
      (∀ c, 0 ≤ dr c ∧ dr c < (p : Int) * p) → (∀ c, ncols ≤ c → dr c = 0) →
      ∃ dr', l.foldlM (fun dr q => elim31 p (q.2 : Int) q.1 dr) dr = some dr' ∧
        (∀ c, 0 ≤ dr' c ∧ dr' c < (p : Int) * p) ∧ (∀ c, ncols ≤ c → dr' c = 0) ∧
        vec p dr' = vec p dr - (l.map fun q => ((q.2 : Nat) : ZMod p) • rvec p q.1).sum
  | [], dr, _, h, h0 => ⟨dr, rfl, h, h0, by simp⟩
  | q :: l, dr, hl, h, h0 => by
    obtain ⟨hq, hr⟩ := hl q List.mem_cons_self
    obtain ⟨d1, e1, a1, a2, a3⟩ := foldlM_sub31 p hp (q.2 : Int) (by positivity) (by exact_mod_cast hq) q.1 dr
      (fun t ht => (hr t ht).2) h
    obtain ⟨d2, e2, b1, b2, b3⟩ := foldlM_combine hp l d1 (fun q hq => hl q (List.mem_cons_of_mem _ hq)) a1
      (fun c hc => by
        rw [a3 c (fun t ht => by have := (hr t ht).1; omega)]
        exact h0 c hc)
    refine ⟨d2, ?_, b1, b2, ?_⟩
    · rw [List.foldlM_cons]
      have : elim31 p (q.2 : Int) q.1 dr = some d1 := e1
      rw [this]
      exact e2
    · rw [b3, a2, List.map_cons, List.sum_cons]
      push_cast
      abel

theorem combine_spec {p ncols : Nat} (hp : (p : Int) * p < 2 ^ 62) (hp0 : 0 < p) {blk : List Row}
    {mull : Nat → Nat} (hm : ∀ k, mull k < p) (hr : ∀ r ∈ blk, ∀ t ∈ r, t.1 < ncols ∧ t.2 < p) :
    ∃ dr, combine p blk mull = some dr ∧ (∀ c, 0 ≤ dr c ∧ dr c < (p : Int) * p) ∧
      (∀ c, ncols ≤ c → dr c = 0) ∧ vec p dr = - combv p blk mull := by
  obtain ⟨dr, e, a1, a2, a3⟩ := foldlM_combine (ncols := ncols) hp
    (List.ofFn fun k : Fin blk.length => (blk.get k, mull k)) (fun _ => 0)
    (by
      intro q hq
      obtain ⟨k, rfl⟩ := List.mem_ofFn.mp hq
      exact ⟨hm _, hr _ (List.get_mem _ _)⟩)
    (fun _ => ⟨le_refl _, by have : (0 : Int) < p := by exact_mod_cast hp0
                             positivity⟩) (fun _ _ => rfl)
  refine ⟨dr, e, a1, a2, ?_⟩
  rw [a3]
  have : vec p (fun _ => 0) = 0 := by funext c; simp [vec]
  rw [this, zero_sub, List.map_ofFn, List.sum_ofFn]
  rfl

/-! ### Invariants -/

/-- Space of a block. -/
def blkSpan (p : Nat) (blk : List Row) : Submodule (ZMod p) (Nat → ZMod p) :=
  Submodule.span (ZMod p) (Set.range fun k : Fin blk.length => rvec p (blk.get k))

theorem combv_mem_blkSpan (p : Nat) (blk : List Row) (mull : Nat → Nat) : combv p blk mull ∈ blkSpan p blk :=
  Submodule.sum_mem _ (fun k _ => Submodule.smul_mem _ _ (Submodule.subset_span ⟨k, rfl⟩))

theorem rvec_mem_blkSpan {p : Nat} {blk : List Row} {r : Row} (h : r ∈ blk) : rvec p r ∈ blkSpan p blk := by
  obtain ⟨j, hj, rfl⟩ := List.mem_iff_getElem.mp h
  exact Submodule.subset_span ⟨⟨j, hj⟩, rfl⟩

/-- Dimension of the part of a block that the pivots already span. -/
noncomputable def covered (p : Nat) (blk : List Row) (pivs : Nat → Option Row) : Nat :=
  Module.finrank (ZMod p) ↥(blkSpan p blk ⊓ allSpan p pivs)

/-- Invariant of the thread of a block. -/
def BOk (P : Echelon.Par) (Ok : Nat → (Nat → Int) → Prop) (pivs0 pivs : Nat → Option Row) (blk : List Row) :
    BTh → Prop
  | .idle b last => (b ≤ blk.length ∧ b ≤ covered P.p blk pivs) ∨
      (blk.length < b ∧ ∃ m, last = some m ∧ combv P.p blk m ∈ allSpan P.p pivs)
  | .work b mull x => b < blk.length ∧ ThOk P Ok pivs0 pivs (- combv P.p blk mull) x ∧
      (x ≠ .won → b ≤ covered P.p blk pivs) ∧ (x = .won → b + 1 ≤ covered P.p blk pivs)
  | .fin last => blkSpan P.p blk ≤ allSpan P.p pivs ∨ ∃ m, last = some m ∧ combv P.p blk m ∈ allSpan P.p pivs

instance (p : Nat) [Fact p.Prime] (blk : List Row) : FiniteDimensional (ZMod p) (blkSpan p blk) :=
  FiniteDimensional.span_of_finite _ (Set.finite_range _)

theorem covered_mono {p : Nat} [Fact p.Prime] {blk : List Row} {pivs pivs' : Nat → Option Row}
    (h : ∀ i r, pivs i = some r → pivs' i = some r) : covered p blk pivs ≤ covered p blk pivs' := by
  unfold covered
  have : FiniteDimensional (ZMod p) ↥(blkSpan p blk ⊓ allSpan p pivs') :=
    Submodule.finiteDimensional_of_le inf_le_left
  exact Submodule.finrank_mono (inf_le_inf_left _ (allSpan_mono h))

theorem covered_lt {p : Nat} [Fact p.Prime] {blk : List Row} {pivs pivs' : Nat → Option Row}
    (h : ∀ i r, pivs i = some r → pivs' i = some r) {v : Nat → ZMod p} (hv : v ∈ blkSpan p blk)
    (h0 : v ∉ allSpan p pivs) (h1 : v ∈ allSpan p pivs') : covered p blk pivs < covered p blk pivs' := by
  unfold covered
  have : FiniteDimensional (ZMod p) ↥(blkSpan p blk ⊓ allSpan p pivs') :=
    Submodule.finiteDimensional_of_le inf_le_left
  apply Submodule.finrank_lt_finrank_of_lt
  refine lt_of_le_of_ne (inf_le_inf_left _ (allSpan_mono h)) (fun he => h0 ?_)
  have : v ∈ blkSpan p blk ⊓ allSpan p pivs := by rw [he]; exact ⟨hv, h1⟩
  exact this.2

/-- A block all of whose dimensions are covered lies in the span of the pivots. -/
theorem covered_full {p : Nat} [Fact p.Prime] {blk : List Row} {pivs : Nat → Option Row}
    (h : blk.length ≤ covered p blk pivs) : blkSpan p blk ≤ allSpan p pivs := by
  have h1 : Module.finrank (ZMod p) (blkSpan p blk) ≤ blk.length := by
    have := finrank_range_le_card (R := ZMod p) (fun k : Fin blk.length => rvec p (blk.get k))
    rw [Fintype.card_fin] at this
    exact this
  have h2 : blkSpan p blk ⊓ allSpan p pivs = blkSpan p blk :=
    Submodule.eq_of_le_of_finrank_le inf_le_left (h1.trans h)
  exact inf_eq_left.mp h2

theorem BOk.mono {P : Echelon.Par} [Fact P.p.Prime] {Ok : Nat → (Nat → Int) → Prop}
    {pivs0 pivs pivs' : Nat → Option Row} {blk : List Row}
    (h : ∀ i r, pivs i = some r → pivs' i = some r) :
    ∀ {x : BTh}, BOk P Ok pivs0 pivs blk x → BOk P Ok pivs0 pivs' blk x
  | .idle _ _, hx => hx.imp (fun a => ⟨a.1, a.2.trans (covered_mono h)⟩)
      (fun ⟨hb, m, e, a⟩ => ⟨hb, m, e, allSpan_mono h a⟩)
  | .work _ _ _, ⟨a1, a2, a3, a4⟩ => ⟨a1, a2.mono h, fun hx => (a3 hx).trans (covered_mono h),
      fun hx => (a4 hx).trans (covered_mono h)⟩
  | .fin _, hx => hx.imp (fun a => a.trans (allSpan_mono h)) (fun ⟨m, e, a⟩ => ⟨m, e, allSpan_mono h a⟩)

/-- When compare-and-swap succeeds the row was not in the span of the pivots. -/
theorem not_mem_of_won {P : Echelon.Par} [Fact P.p.Prime] {Ok : Nat → (Nat → Int) → Prop}
    {pivs0 pivs pivs' : Nat → Option Row} {T : Submodule (ZMod P.p) (Nat → ZMod P.p)} {v : Nat → ZMod P.p}
    (hpiv : PivOk P pivs0 pivs T) {x : Th} (hx : ThOk P Ok pivs0 pivs v x) (hf : x.finished = false)
    (he : thStep P pivs x = some (.won, pivs')) : v ∉ allSpan P.p pivs := by
  rcases x with ⟨st, i, f, s⟩ | ⟨st, f, dr, r⟩ | _ | _
  · exfalso
    simp only [thStep] at he
    split_ifs at he with h1 h2 h3
    · rw [Option.map_eq_some_iff] at he
      obtain ⟨_, _, h⟩ := he
      exact absurd (congrArg Prod.fst h) (by simp)
    · exact absurd (congrArg Prod.fst (Option.some.inj he)) (by simp)
    · rw [Option.map_eq_some_iff] at he
      obtain ⟨_, _, h⟩ := he
      exact absurd (congrArg Prod.fst h) (by simp)
  · obtain ⟨h1, h2, h3, h4, ⟨c, h5a, h5b, h5c, h5d, h5e⟩, h6, u, hu, h7⟩ := hx
    obtain ⟨r', hr'⟩ := h5a.head
    intro hv
    have hvd : vec P.p dr ∈ allSpan P.p pivs := by
      have := Submodule.add_mem _ h1 hv
      rwa [sub_add_cancel] at this
    have hr : rvec P.p r ∈ allSpan P.p pivs := by rw [h7]; exact Submodule.smul_mem _ _ hvd
    have hp := lead_is_pivot hpiv.row hr (l := c) (fun c' hc' => h5a.below hc')
      (by rw [h5a.at_head]; exact one_ne_zero)
    subst hr'
    simp only [thStep] at he
    rcases hpc : pivs c with _ | q
    · exact hp hpc
    · rw [hpc] at he
      exact absurd (congrArg Prod.fst (Option.some.inj he)) (by simp)
  · simp [Th.finished] at hf
  · simp [Th.finished] at hf

/-- Bound on the steps of one combination. -/
def passMax (P : Echelon.Par) : Nat := (2 * P.ncols + 1) * (P.ncols + 2) + P.ncols + 5

/-- Bound on the number of steps the thread of a block can still make. -/
def bmu (P : Echelon.Par) (blk : List Row) : BTh → Nat
  | .idle b _ => (blk.length - b) * passMax P + 1
  | .work b _ x => (blk.length - b - 1) * passMax P + mu P x + 2
  | .fin _ => 0

/-- Facts about the combinations: the modulus, the random numbers, the dense row. -/
structure DrawOk (P : Echelon.Par) (Ok : Nat → (Nat → Int) → Prop) (N : Nat) : Prop where
  sq : (P.p : Int) * P.p < 2 ^ 62
  small : N ≤ P.p
  ok : ∀ dr : Nat → Int, (∀ c, 0 ≤ dr c ∧ dr c < (P.p : Int) * P.p) → Ok 0 dr

theorem blkStep_ok {P : Echelon.Par} {Ok : Nat → (Nat → Int) → Prop} (hP : ParOk P Ok) {N : Nat}
    (hD : DrawOk P Ok N) {pivs0 pivs : Nat → Option Row} {T : Submodule (ZMod P.p) (Nat → ZMod P.p)}
    {blk : List Row} (hr : ∀ r ∈ blk, ∀ t ∈ r, t.1 < P.ncols ∧ t.2 < P.p) (hT : blkSpan P.p blk ≤ T)
    (hcl : ∀ c, c < P.ncl → pivs0 c ≠ none)
    (hpiv : PivOk P pivs0 pivs T) {x : BTh} (hx : BOk P Ok pivs0 pivs blk x) (hf : x.finished = false)
    {mull : Nat → Nat} (hm : ∀ k, mull k < N) :
    ∃ x' pivs', blkStep P blk mull pivs x = some (x', pivs') ∧ BOk P Ok pivs0 pivs' blk x' ∧
      PivOk P pivs0 pivs' T ∧ (∀ i r, pivs i = some r → pivs' i = some r) ∧ bmu P blk x' < bmu P blk x := by
  have hpf : Fact P.p.Prime := ⟨hP.prime⟩
  rcases x with ⟨b, last⟩ | ⟨b, mul, x⟩ | last
  · by_cases hb : b < blk.length
    · obtain ⟨dr, e, a1, a2, a3⟩ := combine_spec (ncols := P.ncols) hD.sq hP.prime.pos
        (fun k => lt_of_lt_of_le (hm k) hD.small) hr
      refine ⟨.work b mull (.red 0 0 true { dr := dr, np := none, k := 0 }), pivs, ?_, ⟨hb, ?_, ?_, ?_⟩, hpiv,
        fun _ _ h => h, ?_⟩
      · simp only [blkStep]; rw [if_pos hb, e]; rfl
      · refine ⟨le_refl _, Nat.zero_le _, hD.ok dr a1, ?_, fun c hc => absurd hc (Nat.not_lt_zero c), a2,
          fun c hc => absurd hc (Nat.not_lt_zero c), fun c hc => Or.inr (hcl c hc), ?_, fun h => by simp at h⟩
        · simp only [a3, sub_self]; exact Submodule.zero_mem _
        · simp [nz]
      · intro _
        rcases hx with h | h
        · exact h.2
        · exact absurd h.1 (by omega)
      · intro h; exact absurd h (by simp)
      · simp only [bmu, mu]
        have h1 : (blk.length - b) * passMax P = (blk.length - b - 1) * passMax P + passMax P := by
          rw [← Nat.succ_mul]; congr 1; omega
        rw [h1]
        unfold passMax
        simp only [if_true, Nat.sub_zero]
        omega
    · refine ⟨.fin last, pivs, ?_, ?_, hpiv, fun _ _ h => h, ?_⟩
      · simp only [blkStep]; rw [if_neg hb]
      · rcases hx with h | h
        · exact Or.inl (covered_full (le_trans (by omega) h.2))
        · exact Or.inr h.2
      · simp only [bmu]; omega
  · obtain ⟨hb, h1, h2, h3⟩ := hx
    by_cases hfin : x.finished = false
    · have hv : - combv P.p blk mul ∈ T := Submodule.neg_mem _ (hT (combv_mem_blkSpan _ _ _))
      obtain ⟨x', pivs', e, b1, b2, b3, b4⟩ := thStep_ok hP hv hpiv h1 hfin
      have hs : blkStep P blk mull pivs (.work b mul x) = some (.work b mul x', pivs') := by
        rcases x with _ | _ | _ | _
        · simp only [blkStep]; rw [e]; rfl
        · simp only [blkStep]; rw [e]; rfl
        · simp [Th.finished] at hfin
        · simp [Th.finished] at hfin
      have hxw : x ≠ .won := fun h => by subst h; simp [Th.finished] at hfin
      refine ⟨.work b mul x', pivs', hs, ⟨hb, b1, fun _ => (h2 hxw).trans (covered_mono b3), ?_⟩, b2, b3, ?_⟩
      · intro hw
        subst hw
        have hn := not_mem_of_won hpiv h1 hfin e
        have hin : - combv P.p blk mul ∈ allSpan P.p pivs' := b1
        have := covered_lt b3 (Submodule.neg_mem _ (combv_mem_blkSpan P.p blk mul)) hn hin
        have := h2 hxw
        omega
      · simp only [bmu]; omega
    · rcases x with _ | _ | _ | _
      · simp [Th.finished] at hfin
      · simp [Th.finished] at hfin
      · refine ⟨.idle (blk.length + 1) (some mul), pivs, rfl, ?_, hpiv, fun _ _ h => h, ?_⟩
        · exact Or.inr ⟨Nat.lt_succ_self _, mul, rfl, (Submodule.neg_mem_iff _).mp h1⟩
        · simp only [bmu, mu]
          have : blk.length - (blk.length + 1) = 0 := by omega
          rw [this]; omega
      · refine ⟨.idle (b + 1) (some mul), pivs, rfl, ?_, hpiv, fun _ _ h => h, ?_⟩
        · exact Or.inl ⟨hb, h3 rfl⟩
        · simp only [bmu, mu]
          rw [Nat.sub_sub]; omega
  · simp [BTh.finished] at hf

/-! ### All executions -/

/-- Invariant of a configuration. -/
def PConfOk (P : Echelon.Par) (Ok : Nat → (Nat → Int) → Prop) (pivs0 : Nat → Option Row)
    (T : Submodule (ZMod P.p) (Nat → ZMod P.p)) {nb : Nat} (blk : Fin nb → List Row) (c : PConf nb) : Prop :=
  PivOk P pivs0 c.pivs T ∧ ∀ i, BOk P Ok pivs0 c.pivs (blk i) (c.th i)

theorem pstep_ok {P : Echelon.Par} {Ok : Nat → (Nat → Int) → Prop} (hP : ParOk P Ok) {N : Nat}
    (hD : DrawOk P Ok N) {pivs0 : Nat → Option Row} {T : Submodule (ZMod P.p) (Nat → ZMod P.p)} {nb : Nat}
    {blk : Fin nb → List Row} (hr : ∀ i, ∀ r ∈ blk i, ∀ t ∈ r, t.1 < P.ncols ∧ t.2 < P.p)
    (hT : ∀ i, blkSpan P.p (blk i) ≤ T) (hcl : ∀ c, c < P.ncl → pivs0 c ≠ none) {c c' : PConf nb}
    (h : PConfOk P Ok pivs0 T blk c) (hs : PStep P N blk c c') :
    PConfOk P Ok pivs0 T blk c' ∧ (∑ i, bmu P (blk i) (c'.th i)) < ∑ i, bmu P (blk i) (c.th i) := by
  have hpf : Fact P.p.Prime := ⟨hP.prime⟩
  rcases hs with ⟨t, mull, x, pivs', hf, hm, e⟩
  obtain ⟨x', pivs'', e', a1, a2, a3, a4⟩ := blkStep_ok hP hD (hr t) (hT t) hcl h.1 (h.2 t) hf hm
  rw [e] at e'
  obtain ⟨hx, hp⟩ := Prod.mk.inj (Option.some.inj e')
  rw [← hx] at a1 a4
  rw [← hp] at a1 a2 a3
  refine ⟨⟨a2, fun t' => ?_⟩, ?_⟩
  · by_cases ht : t' = t
    · subst ht; simp only [Function.update_self]; exact a1
    · simp only [Function.update_of_ne ht]; exact (h.2 t').mono a3
  · apply Finset.sum_lt_sum
    · intro t' _
      by_cases ht : t' = t
      · subst ht; simp only [Function.update_self]; exact a4.le
      · simp only [Function.update_of_ne ht]; exact le_refl _
    · exact ⟨t, Finset.mem_univ _, by simp only [Function.update_self]; exact a4⟩

theorem pexec_ok {P : Echelon.Par} {Ok : Nat → (Nat → Int) → Prop} (hP : ParOk P Ok) {N : Nat}
    (hD : DrawOk P Ok N) {pivs0 : Nat → Option Row} {T : Submodule (ZMod P.p) (Nat → ZMod P.p)} {nb : Nat}
    {blk : Fin nb → List Row} (hr : ∀ i, ∀ r ∈ blk i, ∀ t ∈ r, t.1 < P.ncols ∧ t.2 < P.p)
    (hT : ∀ i, blkSpan P.p (blk i) ≤ T) (hcl : ∀ c, c < P.ncl → pivs0 c ≠ none) {c c' : PConf nb} {m : Nat}
    (h : PConfOk P Ok pivs0 T blk c) (hs : PExec P N blk m c c') :
    PConfOk P Ok pivs0 T blk c' ∧ m + (∑ i, bmu P (blk i) (c'.th i)) ≤ ∑ i, bmu P (blk i) (c.th i) := by
  induction hs with
  | refl => exact ⟨h, by omega⟩
  | step _ hs ih =>
    obtain ⟨b1, b2⟩ := ih h
    obtain ⟨a1, a2⟩ := pstep_ok hP hD hr hT hcl b1 hs
    exact ⟨a1, by omega⟩

theorem probInit_ok {P : Echelon.Par} {Ok : Nat → (Nat → Int) → Prop} {pivs0 : Nat → Option Row}
    (hpiv : ∀ i r, pivs0 i = some r → PivRow P.p P.ncols i r) {T : Submodule (ZMod P.p) (Nat → ZMod P.p)}
    (hT : allSpan P.p pivs0 ≤ T) {nb : Nat} (blk : Fin nb → List Row) :
    PConfOk P Ok pivs0 T blk (probInit pivs0 nb) := by
  refine ⟨⟨hpiv, fun _ _ h => h, hT, fun i r h h' => ?_⟩, fun i => Or.inl ⟨Nat.zero_le _, Nat.zero_le _⟩⟩
  simp only [probInit] at h
  rw [h] at h'
  exact absurd h' (by simp)

/-! ### Counting the bad draws -/

/-- If a block is not contained in a space, at most one in `N` of the vectors of multipliers below `N` gives
a combination inside the space (`N ≤ p`). -/
theorem bad_draws {p : Nat} [Fact p.Prime] {N : Nat} (hN : N ≤ p) (S : Submodule (ZMod p) (Nat → ZMod p))
    (blk : List Row) (h : ¬ blkSpan p blk ≤ S) [DecidablePred fun f : Fin blk.length → Fin N =>
      (∑ k, (((f k : Fin N) : Nat) : ZMod p) • rvec p (blk.get k)) ∈ S] :
    (Finset.univ.filter fun f : Fin blk.length → Fin N =>
      (∑ k, (((f k : Fin N) : Nat) : ZMod p) • rvec p (blk.get k)) ∈ S).card * N ≤ N ^ blk.length := by
  have hj : ∃ j : Fin blk.length, rvec p (blk.get j) ∉ S := by
    by_contra hcon
    push Not at hcon
    apply h
    apply Submodule.span_le.mpr
    rintro _ ⟨k, rfl⟩
    exact hcon k
  obtain ⟨j, hj⟩ := hj
  set B := Finset.univ.filter fun f : Fin blk.length → Fin N =>
      (∑ k, (((f k : Fin N) : Nat) : ZMod p) • rvec p (blk.get k)) ∈ S with hB
  have hinj : Set.InjOn (fun q : (Fin blk.length → Fin N) × Fin N => Function.update q.1 j q.2)
      ((B ×ˢ (Finset.univ : Finset (Fin N)) : Finset _) : Set ((Fin blk.length → Fin N) × Fin N)) := by
    rintro ⟨f, a⟩ hf ⟨g, b⟩ hg he
    simp only [Finset.coe_product, Set.mem_prod, Finset.mem_coe, hB, Finset.mem_filter, Finset.mem_univ,
      true_and, and_true] at hf hg
    simp only at he
    have hab : a = b := by
      have := congrFun he j
      simpa using this
    have hoff : ∀ k, k ≠ j → f k = g k := by
      intro k hk
      have := congrFun he k
      rwa [Function.update_of_ne hk, Function.update_of_ne hk] at this
    have hdiff := Submodule.sub_mem _ hf hg
    rw [← Finset.sum_sub_distrib, Finset.sum_eq_single j] at hdiff
    · rw [← sub_smul] at hdiff
      have hfg : f j = g j := by
        by_contra hne
        apply hj
        have hc : (((f j : Fin N) : Nat) : ZMod p) - (((g j : Fin N) : Nat) : ZMod p) ≠ 0 := by
          rw [sub_ne_zero]
          intro h0
          rw [ZMod.natCast_eq_natCast_iff, Nat.ModEq, Nat.mod_eq_of_lt (lt_of_lt_of_le (f j).2 hN),
            Nat.mod_eq_of_lt (lt_of_lt_of_le (g j).2 hN)] at h0
          exact hne (Fin.ext h0)
        have := Submodule.smul_mem _ ((((f j : Fin N) : Nat) : ZMod p) - (((g j : Fin N) : Nat) : ZMod p))⁻¹ hdiff
        rwa [smul_smul, inv_mul_cancel₀ hc, one_smul] at this
      refine Prod.ext (funext fun k => ?_) hab
      by_cases hk : k = j
      · subst hk; exact hfg
      · exact hoff k hk
    · intro k _ hk
      rw [hoff k hk, sub_self]
    · intro hh; exact absurd (Finset.mem_univ _) hh
  have := Finset.card_le_card_of_injOn (t := (Finset.univ : Finset (Fin blk.length → Fin N))) _
    (fun q _ => Finset.mem_univ _) hinj
  rw [Finset.card_product, Finset.card_univ, Finset.card_univ, Fintype.card_fin, Fintype.card_pi_const,
    Fintype.card_fin] at this
  exact this

end Verif.ProbLA
