import Mathlib.Data.List.Sort
import Verif.Orders
import Verif.Pairs
import Verif.Props.LinAlg

/-! Model of one round of F4 (src/neogb/f4.c 640-720): selection of pairs, symbolic preprocessing
(src/neogb/symbol.c 198-380 and 491-630), conversion to a matrix (src/neogb/convert.c 290-420), linear
algebra (la_ff_32.c 2588-2763, see Echelon), conversion of the new pivots to basis elements
(convert.c 630-760), update of the basis (update.c 281-370).

Simplifications: a monomial stands for its index in the hash tables (C11: equal indices iff equal exponent
vectors), exponents are unbounded, divisor masks are left out (C10: they never reject a divisor), the
degree bound `max_gb_degree` is not set, information for the tracer is left out. -/

namespace Verif.F4

open Verif.Pairs Verif.Spec Verif.RowReduce Verif.Echelon Verif.Props

variable {n : Nat}

/-! ### Monomial orders -/

/-- The monomial orders of the library: `mo == 0`, `mo == 1`, and elimination of `k` variables
(`nev = k`, `mo == 0`), io.c 886-920. -/
inductive OKind where
  | drl
  | lex
  | be (k : Nat)

/-- The comparison of monomials (C07, C08, C09). -/
def OKind.lt : OKind → Mon n → Mon n → Prop
  | .drl => Drl
  | .lex => Lex
  | .be k => Be k

/-- `st->nev` -/
def OKind.nev : OKind → Nat
  | .be k => k
  | _ => 0

/-- `st->mo == 0` -/
def OKind.mo0 : OKind → Bool
  | .lex => false
  | _ => true

/-- The comparison of pairs for the selection: `spair_cmp_drl`, order.c 566-598, `spair_cmp_deglex`
336-351, `spair_cmp_be` 829-856. -/
def OKind.pairLt : OKind → Pair n → Pair n → Prop
  | .drl, a, b => Drl a.lcm b.lcm
  | .lex, a, b => tdeg a.lcm < tdeg b.lcm ∨ (tdeg a.lcm = tdeg b.lcm ∧ Lex a.lcm b.lcm)
  | .be k, a, b => a.deg < b.deg ∨ (a.deg = b.deg ∧ Be k a.lcm b.lcm)

/-! ### Polynomials -/

/-- Sparse polynomials: terms in decreasing order (`hm[i]` with `cf_32[i]`). -/
abbrev Poly (n : Nat) := List (Mon n × Nat)

/-- `hm[i][OFFSET]` -/
def lead (f : Poly n) : Mon n := (f.head?.map Prod.fst).getD 0

/-- `hm[i][DEG]`, convert.c 667-676 and io.c 409-430. -/
def polyDeg (nev : Nat) (f : Poly n) : Int :=
  if nev > 0 then ((f.map (fun t => tdeg t.1)).foldl max (tdeg (lead f)) : Nat) else (tdeg (lead f) : Int)

/-- `multiplied_poly_to_matrix_row`, hash.c: the monomials multiplied, the coefficients shared. -/
def mulPoly (u : Mon n) (f : Poly n) : Poly n := f.map (fun t => (u + t.1, t.2))

/-- Insertion of the monomials of a row into the symbolic hash table; its entries are listed in order of
insertion. -/
def addAll (ms : List (Mon n)) (f : Poly n) : List (Mon n) :=
  f.foldl (fun ms t => if t.1 ∈ ms then ms else ms ++ [t.1]) ms

/-- A row of the matrix: multiplier and index of the basis element. -/
structure MRow (n : Nat) where
  mul : Mon n
  gen : Nat

/-- The polynomial of a row. -/
def rowPoly (els : List (Poly n)) (r : MRow n) : Poly n := mulPoly r.mul (els.getD r.gen [])

/-- Description of the basis for the pair update. -/
def elsOf (nev : Nat) (els : List (Poly n)) : Els n :=
  { lm := fun i => lead (els.getD i []), deg := fun i => polyDeg nev (els.getD i []) }

/-! ### Selection: rows for the selected pairs -/

/-- Skip repeated generators in the sorted list, symbol.c 338-343. -/
def skipEq : Nat → List Nat → List Nat
  | _, [] => []
  | prev, g :: gs => if g = prev then skipEq prev gs else g :: skipEq g gs

/-- The generators of the pairs of one lcm: sorted, without repetition, symbol.c 301-310. -/
def classGens (cls : List (Pair n)) : List Nat :=
  match (cls.flatMap fun p => [p.gen1, p.gen2]).insertionSort (· ≤ ·) with
  | [] => []
  | g :: gs => g :: skipEq g gs

/-- State of the symbolic hash table and the matrix: monomials, those with `idx == 2`, reducer rows, rows
to be reduced. -/
structure Sym (n : Nat) where
  ms : List (Mon n)
  mark : List (Mon n)
  rr : List (MRow n)
  tr : List (MRow n)

/-- Row of generator `g` for lcm `l`: symbol.c 316-325 and 346-356. -/
def mkRow (els : List (Poly n)) (l : Mon n) (g : Nat) : MRow n := ⟨l - lead (els.getD g []), g⟩

/-- Enter a row to be reduced, symbol.c 344-372. -/
def addTr (els : List (Poly n)) (l : Mon n) (s : Sym n) (g : Nat) : Sym n :=
  { s with
    ms := addAll s.ms (rowPoly els (mkRow els l g))
    mark := lead (rowPoly els (mkRow els l g)) :: s.mark
    tr := s.tr ++ [mkRow els l g] }

/-- Rows of the pairs of one lcm: the first generator gives a reducer, the others rows to be reduced,
symbol.c 290-373. -/
def addClass (els : List (Poly n)) (cls : List (Pair n)) (l : Mon n) (s : Sym n) : Sym n :=
  match classGens cls with
  | [] => s
  | g :: gs =>
    gs.foldl (addTr els l)
      { s with
        ms := addAll s.ms (rowPoly els (mkRow els l g))
        mark := lead (rowPoly els (mkRow els l g)) :: s.mark
        rr := s.rr ++ [mkRow els l g] }

/-- The loop over the selected pairs, symbol.c 290-373: consecutive pairs with the same lcm together. -/
def addPairs (els : List (Poly n)) : List (Pair n) → Sym n → Sym n
  | [], s => s
  | p :: l, s =>
    addPairs els (l.dropWhile fun q => decide (q.lcm = p.lcm))
      (addClass els (p :: l.takeWhile fun q => decide (q.lcm = p.lcm)) p.lcm s)
  termination_by l => l.length
  decreasing_by
    have := (List.dropWhile_suffix (l := l) fun q => decide (q.lcm = p.lcm)).length_le
    simp only [List.length_cons]
    omega

/-! ### Symbolic preprocessing -/

/-- `find_multiplied_reducer`, symbol.c 491-552: first reducer whose leading monomial divides. -/
def findReducer (els : List (Poly n)) (lmps : List Nat) (m : Mon n) : Option Nat :=
  lmps.find? fun k => decide (lead (els.getD k []) ≤ m)

/-- One monomial, symbol.c 590-607. -/
def symStep (els : List (Poly n)) (lmps : List Nat) (m : Mon n) (s : Sym n) : Sym n :=
  match findReducer els lmps m with
  | none => s
  | some k =>
    { s with
      ms := addAll s.ms (rowPoly els (mkRow els m k))
      mark := m :: s.mark
      rr := s.rr ++ [mkRow els m k] }

/-- The two loops of `symbolic_preprocessing`, symbol.c 588-607.  The monomials up to `old` were entered by
the selection, they are skipped if they are marked.  `none`: out of fuel. -/
def symLoop (els : List (Poly n)) (lmps : List Nat) (old : Nat) : Nat → Nat → Sym n → Option (Sym n)
  | fuel, i, s =>
    match s.ms[i]? with
    | none => some s
    | some m =>
      match fuel with
      | 0 => none
      | fuel + 1 =>
        if i < old ∧ m ∈ s.mark then symLoop els lmps old fuel (i + 1) s
        else symLoop els lmps old fuel (i + 1) (symStep els lmps m s)

/-! ### Columns -/

/-- `hcm_cmp`: columns with `idx == 2` first, then by decreasing monomial, order.c. -/
def colLt (O : OKind) (mark : List (Mon n)) (u v : Mon n) : Prop :=
  (u ∈ mark ∧ v ∉ mark) ∨ ((u ∈ mark ↔ v ∈ mark) ∧ O.lt v u)

/-- `hcm` is the sorted list of monomials, convert.c 311-321. -/
def IsCols (O : OKind) (s : Sym n) (hcm : List (Mon n)) : Prop :=
  hcm.Perm s.ms ∧ hcm.Pairwise (colLt O s.mark)

/-- `ncl`, convert.c 313-318. -/
def nclOf (s : Sym n) : Nat := (s.ms.filter fun m => decide (m ∈ s.mark)).length

/-- Monomials to columns, convert.c 343-390. -/
def convRow (hcm : List (Mon n)) (f : Poly n) : Row := f.map fun t => (hcm.idxOf t.1, t.2)

/-- Columns to monomials, convert.c 664-666. -/
def backRow (hcm : List (Mon n)) (r : Row) : Poly n := r.map fun t => (hcm.getD t.1 0, t.2)

/-- The known pivots: the reducer rows, sorted, copied to the beginning of the array, la_ff_32.c 2611. -/
def pivs0 (els : List (Poly n)) (hcm : List (Mon n)) (rrs : List (MRow n)) (i : Nat) : Option Row :=
  (rrs[i]?).map fun r => convRow hcm (rowPoly els r)

/-- The rows to be reduced. -/
def laRows (els : List (Poly n)) (hcm : List (Mon n)) (trs : List (MRow n)) (t : Fin trs.length) : Row :=
  convRow hcm (rowPoly els trs[t])

/-- Column of the leading monomial of a row, `row[OFFSET]`. -/
def leadCol (els : List (Poly n)) (hcm : List (Mon n)) (r : MRow n) : Nat := hcm.idxOf (lead (rowPoly els r))

/-- A result of the linear algebra: some interleaving of the threads, then the interreduction.  31 bit
variant, or the lazy variant where its precondition holds (C47). -/
def LaResult (p ncl ncols : Nat) (pivs : Nat → Option Row) {k : Nat} (rows : Fin k → Row) (sc : Fin k → Nat)
    (R : Nat → Option Row) : Prop :=
  (∃ m c, Exec (par31 p ncl ncols) m (initConf pivs rows sc) c ∧ (∀ t, (c.th t).finished = true) ∧
    interreduce (par31 p ncl ncols) c.pivs = some R) ∨
  (p < 2 ^ 18 ∧ ncols < 2 ^ 27 ∧
    ∃ m c, Exec (par17 p ncl ncols) m (initConf pivs rows sc) c ∧ (∀ t, (c.th t).finished = true) ∧
      interreduce (par17 p ncl ncols) c.pivs = some R)

/-- The new basis elements: highest leading monomial first, la_ff_32.c 2720-2750 and convert.c 657-705. -/
def newPolys (hcm : List (Mon n)) (R : Nat → Option Row) : List (Poly n) :=
  (List.range hcm.length).filterMap fun c => (R c).map (backRow hcm)

/-! ### The main loop -/

/-- Parameters: order, characteristic, selection cap, the sort functions for pairs. -/
structure Cfg (n : Nat) where
  ord : OKind
  p : Nat
  mnsel : Nat
  srtUpd : List (Pair n) → List (Pair n)
  srtSel : List (Pair n) → List (Pair n)

/-- What the sort functions guarantee; `mnsel` is at least one (io.c 862-866). -/
structure CfgOk (C : Cfg n) : Prop where
  prime : C.p.Prime
  p31 : C.p < 2 ^ 31
  mnsel : 0 < C.mnsel
  upd : ∀ l, (C.srtUpd l).Perm l
  sel : ∀ l, (C.srtSel l).Perm l
  sorted : ∀ l, (C.srtSel l).Pairwise fun a b => ¬ C.ord.pairLt b a

/-- State of the main loop: basis elements, pairs etc., `bs->constant`. -/
structure St (n : Nat) where
  els : List (Poly n)
  pst : PSt n
  const : Bool

/-- State before the first update: no pairs, nothing known (basis.c, f4.c 640-660). -/
def init0 : PSt n :=
  { ps := [], ld := 0, red := fun _ => false, lmps := [], lo := 0, mltdeg := 0, nred := 0, nredOld := 0 }

/-- The first update with the input polynomials, f4.c 660-680. -/
def start (C : Cfg n) (F : List (Poly n)) : St n :=
  { els := F, pst := updateBasis C.ord.nev C.ord.mo0 C.srtUpd (elsOf C.ord.nev F) F.length init0, const := false }

/-- `ps->ld == 0` or `bs->constant`, update.c 355-370. -/
def done (s : St n) : Prop := s.pst.ps = [] ∨ s.const = true

/-- State after selection, see `addPairs`. -/
def selSym (C : Cfg n) (stale : Mon n) (s : St n) : Sym n :=
  addPairs s.els (select C.mnsel stale (C.srtSel s.pst.ps)).1 ⟨[], [], [], []⟩

/-- The basis and pairs after a round with new elements `N`. -/
def next (C : Cfg n) (stale : Mon n) (s : St n) (N : List (Poly n)) : St n :=
  { els := s.els ++ N
    pst := updateBasis C.ord.nev C.ord.mo0 C.srtUpd (elsOf C.ord.nev (s.els ++ N)) N.length
      { s.pst with ps := (select C.mnsel stale (C.srtSel s.pst.ps)).2 }
    const := s.const || N.any fun f => decide (polyDeg C.ord.nev f = 0) }

/-- One round of the main loop, f4.c 690-720.  `stale` is the content of the pair array behind its used
part, `hcm`, `rrs`, `trs` are the results of the sorts of columns and rows. -/
inductive Round (C : Cfg n) : St n → St n → Prop
  | mk (s : St n) (stale : Mon n) (fuel : Nat) (sy : Sym n) (hcm : List (Mon n)) (rrs trs : List (MRow n))
      (R : Nat → Option Row) :
      ¬ done s →
      symLoop s.els s.pst.lmps (selSym C stale s).ms.length fuel 0 (selSym C stale s) = some sy →
      IsCols C.ord sy hcm →
      rrs.Perm sy.rr → rrs.Pairwise (fun a b => leadCol s.els hcm a ≤ leadCol s.els hcm b) →
      trs.Perm sy.tr →
      LaResult C.p (nclOf sy) hcm.length (pivs0 s.els hcm rrs) (laRows s.els hcm trs)
        (fun t => leadCol s.els hcm trs[t]) R →
      Round C s (next C stale s (newPolys hcm R))

end Verif.F4
