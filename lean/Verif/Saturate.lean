import Verif.F4Final
import Verif.NormalForm
import Verif.SatKernel
import Verif.Props.ProbLA

/-! Model of F4 with saturation (option `-S`): `core_f4sat`, src/neogb/f4sat.c.

The monomial order is the degree reverse lexicographic one (`nev = 0`: with an elimination order
`update_multipliers`, f4sat.c 450-458, overwrites the index `j` it still needs), the characteristic has more
than 16 bits (the functions exist for 32 bit coefficients only). -/

namespace Verif.F4

open Verif.Pairs Verif.Spec Verif.RowReduce Verif.Normalize Verif.Echelon Verif.Props Verif.Orders Verif.Groebner
open Verif.SatKernel Verif.ProbLA MvPolynomial

variable {n : Nat}

/-! ### Multipliers -/

/-- `check_lm_divisibility_and_insert_in_hash_table`: no leading monomial of a reducer divides. -/
def stdMon (els : List (Poly n)) (lmps : List Nat) (u : Mon n) : Bool :=
  lmps.all fun k => !decide (lead (els.getD k []) ≤ u)

/-- `generate_new_basis_elements`, f4sat.c 232-268, with the indices of `update_indices`, 270-295: for the
variables from the last to the first, the elements of the last layer from the index of the variable on are
multiplied by it; the index of the next variable is the first one, from this index on, with exponent zero. -/
def nextLayer (std : Mon n → Bool) : List (Fin n) → List (Mon n) → List (Mon n)
  | [], _ => []
  | v :: vs, L => (L.map fun u => u + Pi.single v 1).filter std ++
      nextLayer std vs (L.dropWhile fun u => decide (u v ≠ 0))

/-- The loop f4sat.c 328-361: layers up to degree `max_deg`, or until one is empty. -/
def layers (std : Mon n → Bool) : Nat → List (Mon n) → List (Mon n)
  | 0, _ => []
  | k + 1, L =>
    match nextLayer std (List.finRange n).reverse L with
    | [] => []
    | N => N ++ layers std k N

/-- `quotient_basis`, f4sat.c 297-367; `none`: the monomial 1 is not standard although `bs->constant` is not
set, then `qb[0]` is no valid index. -/
def quotBasis (std : Mon n → Bool) (maxDeg : Nat) : Option (List (Mon n)) :=
  if std 0 then some (0 :: layers std maxDeg [0]) else none

/-- The loop f4sat.c 408-423: elements of `sat` whose multiplier is the next one of the list stay, others are
removed.  When the list is used up all others stay. -/
def matchSat : List (Mon n) → List (Mon n × Poly n) → List (Mon n × Poly n)
  | [], sat => sat
  | q :: qs, sat =>
    match sat.dropWhile fun e => decide (e.1 ≠ q) with
    | [] => []
    | e :: rest => e :: matchSat qs rest

/-- New elements, f4sat.c 430-465: the last element with a multiplier dividing the new one is multiplied.
`none`: there is none, the search leaves the array. -/
def newMult (m : List (Mon n × Poly n)) (q : Mon n) : Option (Mon n × Poly n) :=
  (m.reverse.find? fun e => decide (e.1 ≤ q)).map fun e => (q, mulPoly (q - e.1) e.2)

/-- `update_multipliers`, f4sat.c 369-492.  `sat` has `NULL` entries (`none`) for elements which were reduced
to zero. -/
def updMult (qb : List (Mon n)) (sat : List (Mon n × Option (Poly n))) : Option (List (Mon n × Poly n)) :=
  let m := matchSat qb (sat.filterMap fun e => e.2.map fun g => (e.1, g))
  ((qb.drop m.length).mapM (newMult m)).map fun new => (m ++ new).take qb.length

/-! ### The kernel -/

/-- A result of the probabilistic linear algebra (C68) with `rows` to be reduced. -/
def PLaResult (p ncl ncols : Nat) (pivs : Nat → Option Row) (rows : List Row) (R : Nat → Option Row) : Prop :=
  ∃ P, (P = par31 p ncl ncols ∨ (p < 2 ^ 18 ∧ ncols + 1 < 2 ^ 27 ∧ P = par17 p ncl ncols)) ∧
    ∃ m c, PExec P (2 ^ 15) (blocksOf rows) m (probInit pivs _) c ∧ (∀ i, (c.th i).finished = true) ∧
      interreduce P c.pivs = some R

/-- The rows of the second phase, la_ff_32.c 2876-2881: the non-zero normal forms with their position and the
column of their multiplier. -/
def satRows (hcm hcmm : List (Mon n)) (N : List (Mon n × Option (Poly n))) : List (Nat × Nat × Row) :=
  N.zipIdx.filterMap fun e => e.1.2.map fun g => (e.2, hcmm.idxOf e.1.1, convRow hcm g)

/-- The rows of the kernel found in the first phase, la_ff_32.c 2836-2852: multipliers of elements reduced to
zero. -/
def zeroRows (hcmm : List (Mon n)) (N : List (Mon n × Option (Poly n))) : List Row :=
  N.filterMap fun e => if e.2 = none then some [(hcmm.idxOf e.1, 1)] else none

/-- `compute_kernel_sat_ff_32` with the symbolic preprocessing before it, f4sat.c 633-648 and la_ff_32.c
2765-3010, for the elements `sat1`: their normal forms `N`, the multipliers `hcmm` of the columns and the rows
`K` of the kernel.  The normal forms are computed by `reduce_dense_row_by_known_pivots_sparse_up_to_ff_31_bit`,
see `nfRow`. -/
inductive Kernel (C : Cfg n) (els : List (Poly n)) (lmps : List Nat) (sat1 : List (Mon n × Poly n)) :
    List (Option (Poly n)) → List (Mon n) → List Row → Prop
  | mk (fuel : Nat) (sy : Sym n) (hcm : List (Mon n)) (rrs : List (MRow n)) (N : List (Option (Poly n)))
      (hcmm : List (Mon n)) (l : List (Nat × Nat × Row)) (K2 K : List Row) :
      symLoop els lmps (nfStart (sat1.map Prod.snd)).ms.length fuel 0 (nfStart (sat1.map Prod.snd)) = some sy →
      sy.rr ≠ [] →
      IsCols C.ord sy hcm →
      rrs.Perm sy.rr → rrs.Pairwise (fun a b => leadCol els hcm a ≤ leadCol els hcm b) →
      (sat1.map Prod.snd).mapM (nfRow (par31 C.p (nclOf sy) hcm.length) hcm (pivs0 els hcm rrs)) = some N →
      hcmm.Perm (sat1.map Prod.fst) → hcmm.Pairwise (fun a b => C.ord.lt b a) →
      l.Perm (satRows hcm hcmm ((sat1.map Prod.fst).zip N)) → l.Pairwise (fun a b => a.2.1 < b.2.1) →
      kernelLoop C.p hcm.length sat1.length l (fun _ => none) [] = some K2 →
      K.Perm (zeroRows hcmm ((sat1.map Prod.fst).zip N) ++ K2) →
      Kernel C els lmps sat1 N hcmm K

/-! ### The main loop -/

/-- State of `core_f4sat`: basis and pairs, saturation elements with their multipliers, `sat_test`,
`next_deg`, `st->nr_kernel_elts`. -/
structure SSt (n : Nat) where
  st : St n
  sat : List (Mon n × Option (Poly n))
  test : Nat
  nextDeg : Nat
  kern : Nat

/-- Elements `N` are added to the basis and `update_basis_f4` is called. -/
def addEls (C : Cfg n) (s : St n) (N : List (Poly n)) : St n :=
  { els := s.els ++ N
    pst := updateBasis C.ord.nev C.ord.mo0 C.srtUpd (elsOf C.ord.nev (s.els ++ N)) N.length s.pst
    const := s.const || N.any fun f => decide (polyDeg C.ord.nev f = 0) }

/-- One turn of the loop over the degrees, f4sat.c 628-717; `K` is the kernel, if it is computed.  If the
symbolic preprocessing finds no reducer, the kernel is not computed (f4sat.c 639). -/
inductive Stage (C : Cfg n) (ii : Nat) (s : SSt n) : Option (List (Mon n) × List Row) → SSt n → Prop
  | skip (qb : List (Mon n)) (sat1 : List (Mon n × Poly n)) (fuel : Nat) (sy : Sym n) :
      quotBasis (stdMon s.st.els s.st.pst.lmps) ii = some qb → updMult qb s.sat = some sat1 →
      symLoop s.st.els s.st.pst.lmps (nfStart (sat1.map Prod.snd)).ms.length fuel 0 (nfStart (sat1.map Prod.snd)) = some sy →
      sy.rr = [] →
      Stage C ii s none { s with sat := sat1.map fun e => (e.1, some e.2) }
  | empty (qb : List (Mon n)) (sat1 : List (Mon n × Poly n)) (N : List (Option (Poly n))) (hcmm : List (Mon n)) :
      quotBasis (stdMon s.st.els s.st.pst.lmps) ii = some qb → updMult qb s.sat = some sat1 →
      Kernel C s.st.els s.st.pst.lmps sat1 N hcmm [] →
      Stage C ii s (some (hcmm, [])) { s with sat := (sat1.map Prod.fst).zip N }
  | kernel (qb : List (Mon n)) (sat1 : List (Mon n × Poly n)) (N : List (Option (Poly n))) (hcmm : List (Mon n))
      (K : List Row) (R : Nat → Option Row) :
      quotBasis (stdMon s.st.els s.st.pst.lmps) ii = some qb → updMult qb s.sat = some sat1 →
      Kernel C s.st.els s.st.pst.lmps sat1 N hcmm K → K ≠ [] →
      PLaResult C.p 0 sat1.length (fun _ => none) K R →
      Stage C ii s (some (hcmm, K)) { s with
        st := addEls C s.st (newPolys hcmm R)
        sat := (sat1.map Prod.fst).zip N
        test := 0
        kern := s.kern + K.length }

/-- The loop over the degrees, f4sat.c 625-723: it is left when the basis has changed. -/
inductive Stages (C : Cfg n) (satDeg : Nat) : Nat → SSt n → SSt n → Prop
  | done (ii : Nat) (s : SSt n) : satDeg ≤ ii → Stages C satDeg ii s { s with nextDeg := satDeg }
  | grow (ii : Nat) (s s' : SSt n) (k : Option (List (Mon n) × List Row)) : ii < satDeg → Stage C ii s k s' →
      s.st.els.length ≠ s'.st.els.length → Stages C satDeg ii s { s' with nextDeg := ii }
  | next (ii : Nat) (s s' s'' : SSt n) (k : Option (List (Mon n) × List Row)) : ii < satDeg → Stage C ii s k s' →
      s.st.els.length = s'.st.els.length → Stages C satDeg (ii + 1) s' s'' → Stages C satDeg ii s s''

/-- A round of the loop in the test, f4sat.c 144-173: as `Round`, with the probabilistic linear algebra. -/
inductive PRound (C : Cfg n) : St n → St n → Prop
  | mk (s : St n) (stale : Mon n) (fuel : Nat) (sy : Sym n) (hcm : List (Mon n)) (rrs trs : List (MRow n))
      (R : Nat → Option Row) :
      s.pst.ps ≠ [] →
      symLoop s.els s.pst.lmps (selSym C stale s).ms.length fuel 0 (selSym C stale s) = some sy →
      IsCols C.ord sy hcm →
      rrs.Perm sy.rr → rrs.Pairwise (fun a b => leadCol s.els hcm a ≤ leadCol s.els hcm b) →
      trs.Perm sy.tr →
      PLaResult C.p (nclOf sy) hcm.length (pivs0 s.els hcm rrs) (trs.map fun r => convRow hcm (rowPoly s.els r)) R →
      PRound C s (next C stale s (newPolys hcm R))

/-- The loop of the test, f4sat.c 144-173. -/
inductive PLoop (C : Cfg n) : St n → St n → Prop
  | stop (s : St n) : s.pst.ps = [] → PLoop C s s
  | const (s s' : St n) : PRound C s s' → s'.const = true → PLoop C s s'
  | step (s s' s'' : St n) : PRound C s s' → s'.const = false → PLoop C s' s'' → PLoop C s s''

/-- `is_already_saturated`, f4sat.c 88-216: the stored element `g` is added to the basis as it is, `e` is the
state in which the loop ends, the answer is its `constant`.  Reallocation of the arrays `lm`, `lmps` and `red`
with their old sizes is not modelled. -/
def TestRun (C : Cfg n) (s : St n) (g : Poly n) (e : St n) : Prop :=
  PLoop C { els := s.els ++ [g]
            pst := updateBasis C.ord.nev C.ord.mo0 C.srtUpd (elsOf C.ord.nev (s.els ++ [g])) 1 s.pst
            const := s.const } e

/-- `is_pure_power`, f4sat.c 35-62: exactly one exponent is not zero. -/
def purePower (u : Mon n) : Bool := decide (((List.finRange n).filter fun i => decide (u i = 0)).length + 1 = n)

/-- `is_zero_dimensional`, f4sat.c 64-86: the number of reducers with a pure power as leading monomial is the
number of variables. -/
def zeroDim (s : St n) : Bool :=
  decide ((s.pst.lmps.filter fun k => purePower (lead (s.els.getD k []))).length = n)

/-- A turn of the main loop up to the saturation step, f4sat.c 571-596: a round of F4.  `bs->constant` may be
set already by the last saturation step; then a round is still made. -/
inductive FStep (C : Cfg n) (s : SSt n) : SSt n → Prop
  | mk (s' : St n) : Round C { s.st with const := false } s' →
      FStep C s { s with
        st := { s' with const := s'.const || s.st.const }
        test := if s.st.els.length < s'.els.length then s.test + 1 else s.test }

/-- Condition for the saturation step, f4sat.c 607; `g` is `sat->hm[0]`. -/
def satCond (s : SSt n) (g : Poly n) : Prop :=
  (s.st.pst.mltdeg ≥ tdeg (lead g) ∧ s.test ≠ 0) ∨ s.st.pst.ps = []

/-- Condition for the test, f4sat.c 610-612. -/
def testCond (s : SSt n) : Prop := s.kern > 0 ∧ s.st.pst.ps = [] ∧ zeroDim s.st = true

/-- `sat_deg`, f4sat.c 620-624. -/
def satDeg (s : SSt n) : Nat := if s.st.pst.ps ≠ [] then (2 * s.st.pst.mltdeg / 3).toNat else s.st.pst.mltdeg.toNat

/-- After the test: what is not restored. -/
def afterTest (s : SSt n) (e : St n) : SSt n :=
  { s with st := { s.st with pst := { s.st.pst with mltdeg := e.pst.mltdeg, nred := e.pst.nred, nredOld := e.pst.nredOld } } }

/-- How the main loop is left: no pairs, a constant, or the test with the element `g` says yes. -/
inductive SEnd (n : Nat) where
  | pairs | const | test (g : Poly n)

/-- A turn of the main loop, f4sat.c 563-725, after which it goes on: the saturation step is not entered
(`go`), entered after the test says no (`no`), entered without test (`sat`).  If `sat->hm[0]` is `NULL`
there is no next state. -/
inductive STurn (C : Cfg n) (s : SSt n) : SSt n → Prop
  | go (s' : SSt n) (m : Mon n) (g : Poly n) : s.st.pst.ps ≠ [] → FStep C s s' → s'.st.const = false →
      s'.sat.head? = some (m, some g) → ¬ satCond s' g → STurn C s s'
  | no (s' s1 : SSt n) (m : Mon n) (g : Poly n) (e : St n) : s.st.pst.ps ≠ [] → FStep C s s' →
      s'.st.const = false → s'.sat.head? = some (m, some g) → satCond s' g → testCond s' → TestRun C s'.st g e →
      e.const = false → Stages C (satDeg (afterTest s' e)) (afterTest s' e).nextDeg (afterTest s' e) s1 →
      STurn C s s1
  | sat (s' s1 : SSt n) (m : Mon n) (g : Poly n) : s.st.pst.ps ≠ [] → FStep C s s' →
      s'.st.const = false → s'.sat.head? = some (m, some g) → satCond s' g → ¬ testCond s' →
      Stages C (satDeg s') s'.nextDeg s' s1 → STurn C s s1

/-- How the main loop is left, f4sat.c 563, 598-602, 610-617.  `ps->ld = 0` (600) is left out, it has no
effect. -/
inductive SLast (C : Cfg n) (s : SSt n) : SSt n → SEnd n → Prop
  | stop : s.st.pst.ps = [] → SLast C s s .pairs
  | const (s' : SSt n) : s.st.pst.ps ≠ [] → FStep C s s' → s'.st.const = true → SLast C s s' .const
  | yes (s' : SSt n) (m : Mon n) (g : Poly n) (e : St n) : s.st.pst.ps ≠ [] → FStep C s s' → s'.st.const = false →
      s'.sat.head? = some (m, some g) → satCond s' g → testCond s' → TestRun C s'.st g e → e.const = true →
      SLast C s (afterTest s' e) (.test g)

/-- Runs of the main loop from a state at its head to the state in which it is left. -/
inductive SRun (C : Cfg n) : SSt n → SSt n → SEnd n → Prop
  | last (s s' : SSt n) (w : SEnd n) : SLast C s s' w → SRun C s s' w
  | turn (s s' s'' : SSt n) (w : SEnd n) : STurn C s s' → SRun C s' s'' w → SRun C s s'' w

/-- Start: the generators and the first update, one saturation element with multiplier 1, f4sat.c 515-556. -/
def satStart (C : Cfg n) (F : List (Poly n)) (f : Poly n) : SSt n :=
  { st := start C F, sat := [(0, some f)], test := 0, nextDeg := 0, kern := 0 }

/-- `core_f4sat` with reduction of the final basis (`reduce_gb == 1`), f4sat.c 494-768. -/
def SatResult (C : Cfg n) (F : List (Poly n)) (f : Poly n) (w : SEnd n) (G : List (Poly n)) : Prop :=
  ∃ s, SRun C (satStart C F f) s w ∧ Final C s.st G

/-! ### Quotient basis -/

/-- Factors of standard monomials are standard. -/
theorem stdMon_mono {els : List (Poly n)} {lmps : List Nat} {u v : Mon n} (h : u ≤ v)
    (hv : stdMon els lmps v = true) : stdMon els lmps u = true := by
  unfold stdMon at *
  rw [List.all_eq_true] at *
  intro k hk
  have := hv k hk
  simp only [Bool.not_eq_true', decide_eq_false_iff_not] at this ⊢
  exact fun h' => this (h'.trans h)

/-- The order in a layer: elements with the last variable first, among the others those with the one before
last first, and so on. -/
def Blocks : List (Fin n) → List (Mon n) → Prop
  | [], _ => True
  | v :: vs, L => ∃ A B, L = A ++ B ∧ (∀ u ∈ A, u v ≠ 0) ∧ (∀ u ∈ B, u v = 0) ∧ Blocks vs B

theorem dropWhile_block {v : Fin n} : ∀ {A B : List (Mon n)}, (∀ u ∈ A, u v ≠ 0) → (∀ u ∈ B, u v = 0) →
    (A ++ B).dropWhile (fun u => decide (u v ≠ 0)) = B := by
  intro A
  induction A with
  | nil =>
    intro B _ hB
    cases B with
    | nil => rfl
    | cons b B => simp [hB b List.mem_cons_self]
  | cons a A ih =>
    intro B hA hB
    rw [List.cons_append, List.dropWhile_cons_of_pos (by simpa using hA a List.mem_cons_self)]
    exact ih (fun u hu => hA u (List.mem_cons_of_mem _ hu)) hB

theorem tdeg_add_single (u : Mon n) (v : Fin n) : tdeg (u + Pi.single v 1) = tdeg u + 1 := by
  unfold tdeg
  simp only [Pi.add_apply, Finset.sum_add_distrib]
  congr 1
  rw [Finset.sum_eq_single v]
  · simp
  · intro b _ hb; simp [Pi.single_eq_of_ne hb]
  · intro h; exact absurd (Finset.mem_univ v) h

theorem sub_add_single {w : Mon n} {v : Fin n} (h : w v ≠ 0) : w - Pi.single v 1 + Pi.single v 1 = w := by
  funext i
  by_cases hi : i = v
  · subst hi
    simp only [Pi.add_apply, Pi.sub_apply, Pi.single_eq_same]
    omega
  · simp [Pi.single_eq_of_ne hi]

/-- One layer. -/
theorem nextLayer_spec {std : Mon n → Bool} (hstd : ∀ u v : Mon n, u ≤ v → std v = true → std u = true) {d : Nat} :
    ∀ (vs : List (Fin n)) (L : List (Mon n)), vs.Nodup → Blocks vs L → L.Nodup →
      (∀ u, u ∈ L ↔ std u = true ∧ tdeg u = d ∧ ∀ v, v ∉ vs → u v = 0) →
      Blocks vs (nextLayer std vs L) ∧ (nextLayer std vs L).Nodup ∧
      ∀ u, u ∈ nextLayer std vs L ↔ std u = true ∧ tdeg u = d + 1 ∧ ∀ v, v ∉ vs → u v = 0
  | [], L, _, _, _, _ => by
    refine ⟨trivial, List.nodup_nil, fun u => ⟨fun h => absurd h List.not_mem_nil, ?_⟩⟩
    rintro ⟨_, h2, h3⟩
    have : tdeg u = 0 := Finset.sum_eq_zero fun i _ => h3 i List.not_mem_nil
    omega
  | v :: vs, L, hnd, hB, hL, hmem => by
    obtain ⟨A, B, rfl, hA, hB0, hB⟩ := hB
    obtain ⟨hv, hvs⟩ := List.nodup_cons.mp hnd
    have hBmem : ∀ u, u ∈ B ↔ std u = true ∧ tdeg u = d ∧ ∀ v, v ∉ vs → u v = 0 := by
      intro u
      constructor
      · intro hu
        obtain ⟨h1, h2, h3⟩ := (hmem u).mp (List.mem_append_right _ hu)
        refine ⟨h1, h2, fun w hw => ?_⟩
        by_cases hwv : w = v
        · rw [hwv]; exact hB0 u hu
        · exact h3 w (by simp [hwv, hw])
      · rintro ⟨h1, h2, h3⟩
        have := (hmem u).mpr ⟨h1, h2, fun w hw => h3 w fun h => hw (List.mem_cons_of_mem _ h)⟩
        rcases List.mem_append.mp this with h | h
        · exact absurd (h3 v hv) (hA u h)
        · exact h
    obtain ⟨i1, i2, i3⟩ := nextLayer_spec hstd vs B hvs hB (List.nodup_append.mp hL).2.1 hBmem
    have e : nextLayer std (v :: vs) (A ++ B) = ((A ++ B).map fun u => u + Pi.single v 1).filter std ++
        nextLayer std vs B := by
      rw [nextLayer, dropWhile_block hA hB0]
    rw [e]
    have h1 : ∀ u ∈ ((A ++ B).map fun u => u + Pi.single v 1).filter std, u v ≠ 0 := by
      intro u hu
      obtain ⟨w, _, rfl⟩ := List.mem_map.mp (List.mem_filter.mp hu).1
      simp
    have h2 : ∀ u ∈ nextLayer std vs B, u v = 0 := fun u hu => ((i3 u).mp hu).2.2 v hv
    refine ⟨⟨_, _, rfl, h1, h2, i1⟩, ?_, ?_⟩
    · rw [List.nodup_append]
      refine ⟨List.Nodup.filter _ (hL.map fun a b hab => add_right_cancel hab), i2, ?_⟩
      intro a ha b hb hab
      exact h1 a ha (hab ▸ h2 b hb)
    · intro u
      rw [List.mem_append]
      constructor
      · rintro (hu | hu)
        · obtain ⟨hu1, hu2⟩ := List.mem_filter.mp hu
          obtain ⟨w, hw, rfl⟩ := List.mem_map.mp hu1
          obtain ⟨_, b2, b3⟩ := (hmem w).mp hw
          refine ⟨hu2, by rw [tdeg_add_single, b2], fun x hx => ?_⟩
          have : x ≠ v := fun h => hx (h ▸ List.mem_cons_self)
          simp [Pi.single_eq_of_ne this, b3 x hx]
        · obtain ⟨b1, b2, b3⟩ := (i3 u).mp hu
          exact ⟨b1, b2, fun x hx => b3 x fun h => hx (List.mem_cons_of_mem _ h)⟩
      · rintro ⟨b1, b2, b3⟩
        by_cases huv : u v = 0
        · refine Or.inr ((i3 u).mpr ⟨b1, b2, fun x hx => ?_⟩)
          by_cases hxv : x = v
          · rw [hxv]; exact huv
          · exact b3 x (by simp [hxv, hx])
        · left
          rw [List.mem_filter]
          refine ⟨List.mem_map.mpr ⟨u - Pi.single v 1, ?_, sub_add_single huv⟩, b1⟩
          rw [hmem]
          refine ⟨hstd _ _ (fun i => Nat.sub_le _ _) b1, ?_, fun x hx => ?_⟩
          · have := tdeg_add_single (u - Pi.single v 1) v
            rw [sub_add_single huv] at this
            omega
          · simp [b3 x hx]

theorem exists_factor (d : Nat) : ∀ (k : Nat) (w : Mon n), tdeg w = d + k → ∃ u, u ≤ w ∧ tdeg u = d := by
  intro k
  induction k with
  | zero => intro w h; exact ⟨w, le_rfl, h⟩
  | succ k ih =>
    intro w h
    have : ∃ v, w v ≠ 0 := by
      by_contra hno
      push Not at hno
      have : tdeg w = 0 := Finset.sum_eq_zero fun i _ => hno i
      omega
    obtain ⟨v, hv⟩ := this
    have h1 := tdeg_add_single (w - Pi.single v 1) v
    rw [sub_add_single hv] at h1
    obtain ⟨u, hu, hd⟩ := ih (w - Pi.single v 1) (by omega)
    exact ⟨u, hu.trans fun i => Nat.sub_le _ _, hd⟩

theorem mem_finRange_reverse (v : Fin n) : v ∈ (List.finRange n).reverse := by simp

/-- All layers. -/
theorem layers_spec {std : Mon n → Bool} (hstd : ∀ u v : Mon n, u ≤ v → std v = true → std u = true) :
    ∀ (k d : Nat) (L : List (Mon n)), Blocks (List.finRange n).reverse L → L.Nodup →
      (∀ u, u ∈ L ↔ std u = true ∧ tdeg u = d) →
      (layers std k L).Nodup ∧ ∀ u, u ∈ layers std k L ↔ std u = true ∧ d < tdeg u ∧ tdeg u ≤ d + k
  | 0, d, L, _, _, _ => by
    refine ⟨List.nodup_nil, fun u => ⟨fun h => absurd h List.not_mem_nil, fun h => by omega⟩⟩
  | k + 1, d, L, hB, hL, hmem => by
    obtain ⟨a1, a2, a3⟩ := nextLayer_spec hstd (d := d) (List.finRange n).reverse L
      (List.nodup_reverse.mpr (List.nodup_finRange n)) hB hL (fun u => by
        rw [hmem]
        exact ⟨fun h => ⟨h.1, h.2, fun v hv => absurd (mem_finRange_reverse v) hv⟩, fun h => ⟨h.1, h.2.1⟩⟩)
    have a3' : ∀ u, u ∈ nextLayer std (List.finRange n).reverse L ↔ std u = true ∧ tdeg u = d + 1 := fun u => by
      rw [a3]
      exact ⟨fun h => ⟨h.1, h.2.1⟩, fun h => ⟨h.1, h.2, fun v hv => absurd (mem_finRange_reverse v) hv⟩⟩
    rw [layers]
    rcases hN : nextLayer std (List.finRange n).reverse L with _ | ⟨b, N⟩
    · simp only
      refine ⟨List.nodup_nil, fun u => ⟨fun h => absurd h List.not_mem_nil, ?_⟩⟩
      rintro ⟨h1, h2, _⟩
      obtain ⟨w, hw, hd⟩ := exists_factor (d + 1) (tdeg u - (d + 1)) u (by omega)
      have := (a3' w).mpr ⟨hstd _ _ hw h1, hd⟩
      rw [hN] at this
      exact absurd this List.not_mem_nil
    · simp only
      rw [hN] at a1 a2 a3'
      obtain ⟨b1, b2⟩ := layers_spec hstd k (d + 1) (b :: N) a1 a2 a3'
      constructor
      · rw [List.nodup_append]
        refine ⟨a2, b1, fun x hx y hy hxy => ?_⟩
        have h1 := ((a3' x).mp hx).2
        have h2 := ((b2 y).mp hy).2.1
        rw [hxy] at h1
        omega
      · intro u
        rw [List.mem_append, a3', b2]
        constructor
        · rintro (⟨h1, h2⟩ | ⟨h1, h2, h3⟩)
          · exact ⟨h1, by omega, by omega⟩
          · exact ⟨h1, by omega, by omega⟩
        · rintro ⟨h1, h2, h3⟩
          rcases Nat.lt_or_ge (d + 1) (tdeg u) with h | h
          · exact Or.inr ⟨h1, h, by omega⟩
          · exact Or.inl ⟨h1, by omega⟩

theorem tdeg_eq_zero {u : Mon n} : tdeg u = 0 ↔ u = 0 := by
  constructor
  · intro h
    funext i
    exact Finset.sum_eq_zero_iff.mp h i (Finset.mem_univ i)
  · rintro rfl; exact Finset.sum_eq_zero fun i _ => rfl

theorem blocks_zero (vs : List (Fin n)) : Blocks vs [(0 : Mon n)] := by
  induction vs with
  | nil => trivial
  | cons v vs ih => exact ⟨[], [0], rfl, by simp, by simp, ih⟩

/-- The quotient basis: all standard monomials up to the degree, each once. -/
theorem quotBasis_spec {std : Mon n → Bool} (hstd : ∀ u v : Mon n, u ≤ v → std v = true → std u = true) {k : Nat}
    {qb : List (Mon n)} (h : quotBasis std k = some qb) :
    qb.Nodup ∧ ∀ u, u ∈ qb ↔ std u = true ∧ tdeg u ≤ k := by
  unfold quotBasis at h
  split_ifs at h with h0
  obtain rfl := Option.some.inj h
  obtain ⟨a1, a2⟩ := layers_spec hstd k 0 [0] (blocks_zero _) (List.nodup_singleton _) (fun u => by
    rw [List.mem_singleton]
    constructor
    · rintro rfl; exact ⟨h0, tdeg_eq_zero.mpr rfl⟩
    · rintro ⟨_, h2⟩; exact tdeg_eq_zero.mp h2)
  constructor
  · rw [List.nodup_cons]
    refine ⟨fun hm => ?_, a1⟩
    have := ((a2 0).mp hm).2.1
    have h1 : tdeg (0 : Mon n) = 0 := tdeg_eq_zero.mpr rfl
    omega
  · intro u
    rw [List.mem_cons, a2]
    constructor
    · rintro (rfl | ⟨h1, h2, h3⟩)
      · exact ⟨h0, by rw [tdeg_eq_zero.mpr rfl]; omega⟩
      · exact ⟨h1, by omega⟩
    · rintro ⟨h1, h2⟩
      by_cases hu : tdeg u = 0
      · exact Or.inl (tdeg_eq_zero.mp hu)
      · exact Or.inr ⟨h1, by omega, by omega⟩

/-! ### Multipliers -/

theorem matchSat_take : ∀ (qb : List (Mon n)) (sat : List (Mon n × Poly n)),
    ((matchSat qb sat).map Prod.fst).take qb.length = qb.take (matchSat qb sat).length
  | [], sat => by simp
  | q :: qs, sat => by
    rw [matchSat]
    split
    · simp
    · rename_i e rest h
      have he : e.1 = q := by
        have := List.head?_dropWhile_not (p := fun e : Mon n × Poly n => decide (e.1 ≠ q)) (l := sat)
        rw [h] at this
        simpa using this
      simp only [List.map_cons, List.length_cons, List.take_succ_cons]
      rw [matchSat_take qs rest, he]

theorem matchSat_sub : ∀ (qb : List (Mon n)) (sat : List (Mon n × Poly n)), ∀ e ∈ matchSat qb sat, e ∈ sat
  | [], sat => fun e he => he
  | q :: qs, sat => by
    rw [matchSat]
    split
    · intro e he; exact absurd he List.not_mem_nil
    · rename_i a rest h
      have hs : ∀ x ∈ a :: rest, x ∈ sat := fun x hx => (List.dropWhile_suffix _).subset (h ▸ hx)
      intro e he
      rcases List.mem_cons.mp he with rfl | he
      · exact hs _ List.mem_cons_self
      · exact hs _ (List.mem_cons_of_mem _ (matchSat_sub qs rest e he))

theorem mapM_newMult {m : List (Mon n × Poly n)} : ∀ {l : List (Mon n)} {new : List (Mon n × Poly n)},
    l.mapM (newMult m) = some new → new.map Prod.fst = l ∧
      ∀ x ∈ new, ∃ e ∈ m, e.1 ≤ x.1 ∧ x.2 = mulPoly (x.1 - e.1) e.2
  | [], new, h => by
    simp only [List.mapM_nil, Option.pure_def, Option.some.injEq] at h
    subst h
    exact ⟨rfl, by simp⟩
  | q :: l, new, h => by
    simp only [List.mapM_cons, Option.bind_eq_bind, Option.bind_eq_some_iff, Option.pure_def, Option.some.injEq] at h
    obtain ⟨x, hx, new', hn, rfl⟩ := h
    obtain ⟨a1, a2⟩ := mapM_newMult hn
    unfold newMult at hx
    rw [Option.map_eq_some_iff] at hx
    obtain ⟨e, he, rfl⟩ := hx
    refine ⟨by rw [List.map_cons, a1], ?_⟩
    intro y hy
    rcases List.mem_cons.mp hy with rfl | hy
    · exact ⟨e, List.mem_reverse.mp (List.mem_of_find?_eq_some he), by simpa using List.find?_some he, rfl⟩
    · exact a2 y hy

/-- The updated list has the multipliers of the quotient basis, and its elements are old ones or multiples
of old ones. -/
theorem updMult_spec {qb : List (Mon n)} {sat : List (Mon n × Option (Poly n))} {sat1 : List (Mon n × Poly n)}
    (h : updMult qb sat = some sat1) : sat1.map Prod.fst = qb ∧
      ∀ x ∈ sat1, (x.1, some x.2) ∈ sat ∨ ∃ m g, (m, some g) ∈ sat ∧ m ≤ x.1 ∧ x.2 = mulPoly (x.1 - m) g := by
  unfold updMult at h
  simp only [Option.map_eq_some_iff] at h
  obtain ⟨new, hnew, rfl⟩ := h
  obtain ⟨a1, a2⟩ := mapM_newMult hnew
  have hlive : ∀ e ∈ matchSat qb (sat.filterMap fun e => e.2.map fun g => (e.1, g)), (e.1, some e.2) ∈ sat := by
    intro e he
    have := matchSat_sub _ _ e he
    rw [List.mem_filterMap] at this
    obtain ⟨y, hy, hye⟩ := this
    rw [Option.map_eq_some_iff] at hye
    obtain ⟨g, hg, rfl⟩ := hye
    simp only
    rw [← hg]
    exact hy
  have ht := matchSat_take qb (sat.filterMap fun e => e.2.map fun g => (e.1, g))
  set m := matchSat qb (sat.filterMap fun e => e.2.map fun g => (e.1, g)) with hm
  constructor
  · rw [List.map_take, List.map_append, a1]
    by_cases hle : m.length ≤ qb.length
    · rw [List.take_of_length_le (by rw [List.length_map]; exact hle)] at ht
      rw [ht, List.take_append_drop, List.take_length]
    · rw [List.drop_eq_nil_of_le (by omega), List.append_nil, ht, List.take_of_length_le (by omega)]
  · intro x hx
    rcases List.mem_append.mp (List.mem_of_mem_take hx) with h1 | h1
    · exact Or.inl (hlive x h1)
    · obtain ⟨e, he, hle, hx2⟩ := a2 x h1
      exact Or.inr ⟨e.1, e.2, hlive e he, hle, hx2⟩

end Verif.F4
