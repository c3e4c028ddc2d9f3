import Verif.ProbLA
import Verif.Props.LinAlg

/-! C68: the probabilistic linear algebra. -/

namespace Verif.Props
open Verif.RowReduce Verif.Normalize Verif.Echelon Verif.ProbLA

/-- Input: known pivots exactly in the columns left of `ncl`, rows to be reduced. -/
structure ProbPre (p ncl ncols : Nat) (pivs0 : Nat → Option Row) (rows : List Row) : Prop where
  left : ncl ≤ ncols
  piv : ∀ i r, pivs0 i = some r → PivRow p ncols i r
  known : ∀ c, pivs0 c ≠ none ↔ c < ncl
  rows : ∀ r ∈ rows, (r.map Prod.fst).Nodup ∧ ∀ t ∈ r, t.1 < ncols ∧ t.2 < p

/-- The space spanned by the known pivots and the new rows `R`. -/
def outSpan (p : Nat) (pivs0 R : Nat → Option Row) : Submodule (ZMod p) (Nat → ZMod p) :=
  Submodule.span (ZMod p) ({ v | ∃ j r, pivs0 j = some r ∧ v = rvec p r } ∪ { v | ∃ j r, R j = some r ∧ v = rvec p r })

/-- The space spanned by the known pivots and the rows of the input. -/
def inSpan (p : Nat) (pivs0 : Nat → Option Row) (rows : List Row) : Submodule (ZMod p) (Nat → ZMod p) :=
  Submodule.span (ZMod p) ({ v | ∃ j r, pivs0 j = some r ∧ v = rvec p r } ∪ { v | ∃ r ∈ rows, v = rvec p r })

/-- The new rows are monic, have increasing columns, and vanish in all other pivot columns and in the
columns of the known pivots. -/
def ReducedShape (p ncl ncols : Nat) (R : Nat → Option Row) : Prop :=
  ∀ i r, R i = some r → ncl ≤ i ∧ (∃ r', r = (i, 1) :: r') ∧ (r.map Prod.fst).Pairwise (· < ·) ∧
    ∀ t ∈ r, t.1 < ncols ∧ 0 < t.2 ∧ t.2 < p ∧ (t.1 ≠ i → R t.1 = none)

/-- The blocks of an input. -/
def blocksOf (rows : List Row) : Fin (nBlocks rows.length) → List Row := fun i => blockRows rows i

/-- The random combination of the rows of a block. -/
def randomComb (p : Nat) (blk : List Row) (mull : Nat → Nat) : Nat → ZMod p :=
  ∑ k : Fin blk.length, ((mull k : Nat) : ZMod p) • rvec p (blk.get k)

/-- Everything C68 claims about one input. -/
structure ProbSound (P : Echelon.Par) (N : Nat) (pivs0 : Nat → Option Row) (rows : List Row) : Prop where
  /-- No undefined behaviour: every unfinished block can make its next step, whatever numbers are drawn. -/
  progress : ∀ m c, PExec P N (blocksOf rows) m (probInit pivs0 _) c → ∀ i, (c.th i).finished = false →
    ∀ mull : Nat → Nat, (∀ k, mull k < N) → blkStep P (blocksOf rows i) mull c.pivs (c.th i) ≠ none
  /-- Executions have bounded length, whatever numbers are drawn. -/
  bounded : ∃ M, ∀ m c, PExec P N (blocksOf rows) m (probInit pivs0 _) c → m ≤ M
  /-- The interreduction succeeds; its rows have the shape of a reduced echelon form and lie in the space
  spanned by the input. -/
  sound : ∀ m c, PExec P N (blocksOf rows) m (probInit pivs0 _) c → (∀ i, (c.th i).finished = true) →
    ∃ R, interreduce P c.pivs = some R ∧ ReducedShape P.p P.ncl P.ncols R ∧
      outSpan P.p pivs0 R ≤ inSpan P.p pivs0 rows
  /-- A block with a row outside of the result ended with a draw whose combination lies in the space of the
  result. -/
  missed : ∀ m c, PExec P N (blocksOf rows) m (probInit pivs0 _) c → (∀ i, (c.th i).finished = true) →
    ∀ R, interreduce P c.pivs = some R → ∀ i, (∀ r ∈ blocksOf rows i, rvec P.p r ∈ outSpan P.p pivs0 R) ∨
      ∃ mull : Nat → Nat, (∀ k, mull k < N) ∧ c.th i = .fin (some mull) ∧
        randomComb P.p (blocksOf rows i) mull ∈ outSpan P.p pivs0 R
  /-- If no row is missed, the result is the one of the exact variant, for all executions of both. -/
  exact_ : ∀ m c, PExec P N (blocksOf rows) m (probInit pivs0 _) c → (∀ i, (c.th i).finished = true) →
    ∀ R, interreduce P c.pivs = some R → (∀ r ∈ rows, rvec P.p r ∈ outSpan P.p pivs0 R) →
    ∀ sc, EchelonPre P.p P.ncl P.ncols pivs0 rows.get sc → ∀ m' c', Exec P m' (initConf pivs0 rows.get sc) c' →
      (∀ t, (c'.th t).finished = true) → interreduce P c'.pivs = some R

/-- The draws of a finished block are below `N`. -/
def drawnOk (N : Nat) : BTh → Prop
  | .idle _ last => ∀ m, last = some m → ∀ k, m k < N
  | .work _ m _ => ∀ k, m k < N
  | .fin last => ∀ m, last = some m → ∀ k, m k < N

theorem blkStep_drawn {P : Echelon.Par} {N : Nat} {blk : List Row} {mull : Nat → Nat} {pivs pivs' : Nat → Option Row}
    {x x' : BTh} (hm : ∀ k, mull k < N) (h : drawnOk N x) (e : blkStep P blk mull pivs x = some (x', pivs')) :
    drawnOk N x' := by
  rcases x with ⟨b, last⟩ | ⟨b, m, x⟩ | last
  · simp only [blkStep] at e
    split_ifs at e
    · rw [Option.map_eq_some_iff] at e
      obtain ⟨_, _, e⟩ := e
      rw [← (Prod.mk.inj e).1]
      exact hm
    · rw [← (Prod.mk.inj (Option.some.inj e)).1]
      exact h
  · have key : ∀ y, (∃ b', y = BTh.idle b' (some m)) ∨ (∃ z, y = BTh.work b m z) → drawnOk N y := by
      rintro y (⟨b', rfl⟩ | ⟨z, rfl⟩)
      · intro m' hm'; rw [← Option.some.inj hm']; exact h
      · exact h
    rcases x with _ | _ | _ | _
    · simp only [blkStep, Option.map_eq_some_iff] at e
      obtain ⟨q, _, e⟩ := e
      exact key _ (Or.inr ⟨_, (Prod.mk.inj e).1.symm⟩)
    · simp only [blkStep, Option.map_eq_some_iff] at e
      obtain ⟨q, _, e⟩ := e
      exact key _ (Or.inr ⟨_, (Prod.mk.inj e).1.symm⟩)
    · exact key _ (Or.inl ⟨_, (Prod.mk.inj (Option.some.inj e)).1.symm⟩)
    · exact key _ (Or.inl ⟨_, (Prod.mk.inj (Option.some.inj e)).1.symm⟩)
  · rw [← (Prod.mk.inj (Option.some.inj e)).1]
    exact h

theorem pexec_drawn {P : Echelon.Par} {N : Nat} {nb : Nat} {blk : Fin nb → List Row} {m : Nat} {c c' : PConf nb}
    (h : ∀ i, drawnOk N (c.th i)) (he : PExec P N blk m c c') : ∀ i, drawnOk N (c'.th i) := by
  induction he with
  | refl => exact h
  | step _ hs ih =>
    have ih := ih h
    rcases hs with ⟨t, mull, x, pivs', hf, hm, e⟩
    intro i
    by_cases hi : i = t
    · subst hi; simp only [Function.update_self]; exact blkStep_drawn hm (ih i) e
    · simp only [Function.update_of_ne hi]; exact ih i

theorem outSpan_eq (p : Nat) (pivs0 R : Nat → Option Row) : outSpan p pivs0 R = allSpan p pivs0 ⊔ allSpan p R := by
  unfold outSpan allSpan; rw [Submodule.span_union]

theorem probSound {P : Echelon.Par} {Ok : Nat → (Nat → Int) → Prop} (hP : ParOk P Ok) {N : Nat}
    (hD : DrawOk P Ok N) {pivs0 : Nat → Option Row} {rows : List Row}
    (h : ProbPre P.p P.ncl P.ncols pivs0 rows) : ProbSound P N pivs0 rows := by
  have hr : ∀ i, ∀ r ∈ blocksOf rows i, ∀ t ∈ r, t.1 < P.ncols ∧ t.2 < P.p :=
    fun i r hr => (h.rows r (mem_of_block hr)).2
  have hT : ∀ i, blkSpan P.p (blocksOf rows i) ≤ inSpan P.p pivs0 rows := by
    intro i
    apply Submodule.span_le.mpr
    rintro _ ⟨k, rfl⟩
    exact Submodule.subset_span (Or.inr ⟨_, mem_of_block (List.get_mem (blocksOf rows i) k), rfl⟩)
  have hcl : ∀ c, c < P.ncl → pivs0 c ≠ none := fun c hc => (h.known c).mpr hc
  have hinit : PConfOk P Ok pivs0 (inSpan P.p pivs0 rows) (blocksOf rows) (probInit pivs0 _) :=
    probInit_ok h.piv (Submodule.span_mono Set.subset_union_left) _
  refine ⟨?_, ⟨∑ i, bmu P (blocksOf rows i) ((probInit pivs0 _).th i), fun m c he => ?_⟩, ?_, ?_, ?_⟩
  · intro m c he i hf mull hm
    obtain ⟨hc, _⟩ := pexec_ok hP hD hr hT hcl hinit he
    obtain ⟨x', pivs', e, _⟩ := blkStep_ok hP hD (hr i) (hT i) hcl hc.1 (hc.2 i) hf hm
    rw [e]
    exact Option.some_ne_none _
  · have := (pexec_ok hP hD hr hT hcl hinit he).2
    exact le_trans (Nat.le_add_right _ _) this
  · intro m c he hfin
    obtain ⟨hc, _⟩ := pexec_ok hP hD hr hT hcl hinit he
    obtain ⟨R, e, a1, a2, a3, a4⟩ := interreduce_piv hP h.known hc.1
    refine ⟨R, e, ?_, ?_⟩
    · intro i r hir
      obtain ⟨b1, b3, b2⟩ := a1.row i r hir
      refine ⟨?_, b1.head, b3, fun t ht => ⟨(b1.bound t ht).1, b2 t ht, (b1.bound t ht).2,
        a1.red i r hir t ht⟩⟩
      by_contra hlt
      rw [a4 i (by omega)] at hir
      exact absurd hir (by simp)
    · rw [outSpan_eq, a2]
      exact hc.1.sub
  · intro m c he hfin R hR i
    obtain ⟨hc, _⟩ := pexec_ok hP hD hr hT hcl hinit he
    have hd := pexec_drawn (c := probInit pivs0 _) (fun i m hm => by simp at hm) he i
    obtain ⟨R', e, a1, a2, a3, a4⟩ := interreduce_piv hP h.known hc.1
    rw [hR] at e
    rw [← Option.some.inj e] at a2
    rw [outSpan_eq, a2]
    have hb := hc.2 i
    have hf := hfin i
    rcases hx : c.th i with _ | _ | last
    · rw [hx] at hf; simp [BTh.finished] at hf
    · rw [hx] at hf; simp [BTh.finished] at hf
    · rw [hx] at hb hd
      rcases hb with hb | ⟨mull, rfl, hb⟩
      · exact Or.inl (fun r hr => hb (rvec_mem_blkSpan hr))
      · exact Or.inr ⟨mull, hd mull rfl, rfl, hb⟩
  · intro m c he hfin R hR hall sc hpre m' c' he' hfin'
    obtain ⟨hc, _⟩ := pexec_ok hP hD hr hT hcl hinit he
    obtain ⟨R1, e, a1, a2, a3, a4⟩ := interreduce_piv hP h.known hc.1
    rw [hR] at e
    rw [← Option.some.inj e] at a1 a2 a3 a4
    have hinit' := init_ok (Ok := Ok) hP h.piv hcl hpre.start hpre.rows
    have hv : ∀ t, rvec P.p (rows.get t) ∈ total P.p pivs0 rows.get := fun t =>
      Submodule.mem_sup_right (Submodule.subset_span ⟨t, rfl⟩)
    obtain ⟨hc', _⟩ := exec_ok hP hv hinit' he'
    obtain ⟨R', e', a1', a2', a3', a4'⟩ := interreduce_ok hP h.known hc' hfin'
    have z : ∀ x ∈ allSpan P.p R, ∀ c, pivs0 c ≠ none → x c = 0 := fun x hx c hc =>
      a3 x hx c ((h.known c).mp hc)
    have z' : ∀ x ∈ allSpan P.p R', ∀ c, pivs0 c ≠ none → x c = 0 := fun x hx c hc =>
      a3' x hx c ((h.known c).mp hc)
    have hs : allSpan P.p pivs0 ⊔ allSpan P.p R = allSpan P.p pivs0 ⊔ allSpan P.p R' := by
      rw [a2']
      apply le_antisymm
      · rw [a2]
        refine hc.1.sub.trans ?_
        apply Submodule.span_le.mpr
        rintro v (⟨j, r, h1, rfl⟩ | ⟨r, h1, rfl⟩)
        · exact Submodule.mem_sup_left (Submodule.subset_span ⟨j, r, h1, rfl⟩)
        · obtain ⟨k, hk, rfl⟩ := List.mem_iff_getElem.mp h1
          exact Submodule.mem_sup_right (Submodule.subset_span ⟨⟨k, hk⟩, rfl⟩)
      · apply sup_le le_sup_left
        apply Submodule.span_le.mpr
        rintro _ ⟨t, rfl⟩
        have := hall _ (List.get_mem rows t)
        rw [outSpan_eq] at this
        exact this
    rw [e', a1.unique hP.prime.one_lt a1' (le_antisymm (span_determined h.piv z z' hs)
      (span_determined h.piv z' z hs.symm))]

/-- C68, primes in `[2^15, 2^31)`: `probabilistic_sparse_reduced_echelon_form_ff_32` with the 31 bit
reduction; multipliers below `2^15`. -/
theorem C68_probabilistic_31 (p ncl ncols : Nat) (hp : p.Prime) (hp15 : 2 ^ 15 ≤ p) (hp31 : p < 2 ^ 31)
    (pivs0 : Nat → Option Row) (rows : List Row) (h : ProbPre p ncl ncols pivs0 rows) :
    ProbSound (par31 p ncl ncols) (2 ^ 15) pivs0 rows :=
  probSound (P := par31 p ncl ncols) (par31_ok p ncl ncols hp hp31 h.left)
    ⟨by
      simp only [par31]
      have : (p : Int) < 2 ^ 31 := by exact_mod_cast hp31
      have h0 : (0 : Int) < p := by exact_mod_cast hp.pos
      nlinarith, hp15, fun _ h => h⟩ h

theorem par17_ok' (p ncl ncols : Nat) (hp : p.Prime) (hp18 : p < 2 ^ 18) (hn : ncols + 1 < 2 ^ 27)
    (h : ncl ≤ ncols) : ParOk (par17 p ncl ncols) (Ok17 p (p * p - 1)) where
  elim := elim17_spec p ncols (p * p - 1) hp.pos (by
      have : (1 : Int) ≤ p := by exact_mod_cast hp.pos
      nlinarith) (by
      have : (1 : Int) ≤ p := by exact_mod_cast hp.pos
      nlinarith) (by
    have hpp : (0 : Int) < p := by exact_mod_cast hp.pos
    have h18 : (p : Int) ≤ 2 ^ 18 - 1 := by
      have : (p : Int) < 2 ^ 18 := by exact_mod_cast hp18
      linarith
    have hn' : (ncols : Int) ≤ 2 ^ 27 - 2 := by omega
    have hn0 : (0 : Int) ≤ ncols := by positivity
    have h0 : (p : Int) * p ≤ (2 ^ 18 - 1) * (2 ^ 18 - 1) := mul_le_mul h18 h18 hpp.le (by norm_num)
    have h1 : ((p : Int) - 1) * (p - 1) ≤ (2 ^ 18 - 1) * (2 ^ 18 - 1) :=
      mul_le_mul (by linarith) (by linarith) (by linarith) (by norm_num)
    have h2 : (ncols : Int) * (((p : Int) - 1) * (p - 1)) ≤ (2 ^ 27 - 2) * ((2 ^ 18 - 1) * (2 ^ 18 - 1)) :=
      mul_le_mul hn' h1 (mul_self_nonneg _) (by norm_num)
    norm_num at h0 h2 h18 ⊢
    linarith)
  prime := hp
  hw := by simp only [par17]; omega
  ho := by simp only [par17]; omega
  hww := lt_of_le_of_lt (Nat.mul_le_mul (by omega : p - 1 ≤ 2 ^ 31)
    (by omega : p - 1 ≤ 2 ^ 31)) (by simp only [par17]; norm_num)
  h32 := by simp only [par17]; omega
  hncl := h

/-- C68 with the lazy reduction, primes in `[2^15, 2^18)`, fewer than `2^27 - 1` columns. -/
theorem C68_probabilistic_17 (p ncl ncols : Nat) (hp : p.Prime) (hp15 : 2 ^ 15 ≤ p) (hp18 : p < 2 ^ 18)
    (hn : ncols + 1 < 2 ^ 27) (pivs0 : Nat → Option Row) (rows : List Row)
    (h : ProbPre p ncl ncols pivs0 rows) : ProbSound (par17 p ncl ncols) (2 ^ 15) pivs0 rows :=
  probSound (P := par17 p ncl ncols) (par17_ok' p ncl ncols hp hp18 hn h.left)
    ⟨by
      simp only [par17]
      have : (p : Int) < 2 ^ 18 := by exact_mod_cast hp18
      have h0 : (0 : Int) < p := by exact_mod_cast hp.pos
      nlinarith, hp15, fun dr hdr c => ⟨(hdr c).1, by
        have := (hdr c).2
        simp only [par17] at this
        push_cast
        linarith⟩⟩ h

/-- C68: of the `N^k` vectors of multipliers for a block of `k` rows at most `N^(k-1)` give a combination in a
space that does not contain the block.  With `missed`: a row is lost only if such a draw occurred. -/
theorem C68_bad_draws {p N : Nat} (hp : p.Prime) (hN : N ≤ p) (S : Submodule (ZMod p) (Nat → ZMod p))
    (blk : List Row) (h : ¬ ∀ r ∈ blk, rvec p r ∈ S) :
    Nat.card { f : Fin blk.length → Fin N // randomComb p blk (fun k => if hk : k < blk.length then (f ⟨k, hk⟩ : Nat) else 0) ∈ S } * N
      ≤ N ^ blk.length := by
  classical
  have hpf : Fact p.Prime := ⟨hp⟩
  have h' : ¬ blkSpan p blk ≤ S := fun hle => h (fun r hr => hle (rvec_mem_blkSpan hr))
  have := bad_draws hN S blk h'
  rw [← Fintype.card_subtype] at this
  rw [Nat.card_eq_fintype_card]
  refine le_trans (le_of_eq ?_) this
  congr 1
  apply Fintype.card_congr
  apply Equiv.subtypeEquivRight
  intro f
  unfold randomComb
  simp

/-- C68: the blocks contain every row, and no block starts behind the end of the rows (the signed row count of
a block is not negative). -/
theorem C68_blocks (rows : List Row) :
    (∀ r, r ∈ rows ↔ ∃ i, i < nBlocks rows.length ∧ r ∈ blockRows rows i) ∧
    ∀ i, i < nBlocks rows.length → i * rowsPerBlock rows.length ≤ rows.length :=
  ⟨fun _ => ⟨fun h => mem_block h, fun ⟨_, _, h⟩ => mem_of_block h⟩, block_start_le rows.length⟩

/-- Rows are really lost for some draws: one row, multiplier 0. -/
theorem C68_can_lose : ∃ (c : PConf (nBlocks 1)) (m : Nat),
    PExec (par31 32771 0 1) (2 ^ 15) (blocksOf [[(0, 1)]]) m (probInit (fun _ => none) _) c ∧
    (∀ i, (c.th i).finished = true) ∧ interreduce (par31 32771 0 1) c.pivs = some (fun _ => none) := by
  have hm : ∀ k, (fun _ : Nat => (0 : Nat)) k < 2 ^ 15 := fun _ => by norm_num
  have hi : ∀ i : Fin (nBlocks 1), i = ⟨0, nBlocks_pos 1⟩ := fun i => by
    have h1 : nBlocks 1 = 1 := by decide
    apply Fin.ext
    have := i.2
    simp only
    omega
  have hb : blocksOf [[(0, 1)]] ⟨0, nBlocks_pos 1⟩ = [[(0, 1)]] := by decide
  have e1 := PExec.refl (P := par31 32771 0 1) (N := 2 ^ 15) (blk := blocksOf [[(0, 1)]])
    (probInit (fun _ => none) (nBlocks 1))
  have e2 := PExec.step e1 (.mk _ ⟨0, nBlocks_pos 1⟩ (fun _ => 0) _ _ rfl hm (by rw [hb]; rfl))
  have e3 := PExec.step e2 (.mk _ ⟨0, nBlocks_pos 1⟩ (fun _ => 0) _ _ rfl hm (by rw [hb]; rfl))
  have e4 := PExec.step e3 (.mk _ ⟨0, nBlocks_pos 1⟩ (fun _ => 0) _ _ rfl hm (by rw [hb]; rfl))
  have e5 := PExec.step e4 (.mk _ ⟨0, nBlocks_pos 1⟩ (fun _ => 0) _ _ rfl hm (by rw [hb]; rfl))
  have e6 := PExec.step e5 (.mk _ ⟨0, nBlocks_pos 1⟩ (fun _ => 0) _ _ rfl hm (by rw [hb]; rfl))
  refine ⟨_, _, e6, fun i => ?_, ?_⟩
  · rw [hi i]; rfl
  · rfl

/-- Hypotheses of C68 for a concrete matrix. -/
example : ProbPre 32771 1 5 (fun i => if i = 0 then some [(0, 1), (2, 4), (3, 6)] else none)
    [[(0, 2), (1, 3), (4, 1)], [(1, 5), (2, 2), (3, 1)], [(0, 3), (4, 32770)], [(2, 1)]] := by
  refine ⟨by decide, ?_, ?_, by decide⟩
  · intro i r h
    split_ifs at h with h1
    subst h1; rw [← Option.some.inj h]; exact ⟨⟨_, rfl⟩, by decide, by decide, by decide⟩
  · intro c
    by_cases h : c = 0
    · simp [h]
    · simp [h]

end Verif.Props
