import Verif.URoots
import Verif.Spec.Interval
import Verif.Spec.RealPoint

/-!
Coordinates of the real solutions from the parametrization.
Source: src/usolve/evaluate.c 157-298, src/msolve/msolve.c 2654-2695, 2759-2800, 2911-3305.

`mpz_fdiv_q` is `Int.fdiv`, `mpz_cdiv_q` is `cdivq`.  `none` stands for `exit`, for a division by zero and for a
shift by a negative number of bits.  Numbers of bits (`long`, `int64_t`, `int`) are unbounded.
-/
namespace Verif.RealPoints
open Verif.UPoly Verif.UEval Verif.USign Verif.UIsolate Verif.Isolate Verif.URefine

/-- `mpz_cdiv_q`. -/
def cdivq (a b : ℤ) : ℤ := -((-a).fdiv b)

/-! ### Interval evaluation -/

/-- One turn of the loops of `mpz_poly_eval_interval`, evaluate.c 184-202 (`a ≥ 0`) and 211-231 (`a < 0`), with
`tmp = t`. -/
def ivStep (a b t : ℤ) (s : ℤ × ℤ) : ℤ × ℤ :=
  if 0 ≤ a then
    if 0 ≤ s.1 then (s.1 * a + t, s.2 * b + t) else (s.1 * b + t, s.2 * a + t)
  else
    if 0 ≤ s.1 then (s.2 * a + t, s.1 * b + t) else (s.2 * b + t, s.1 * a + t)

/-- `val_do`, `val_up` after `i` turns. -/
def iv (up : ℕ → ℤ) (deg k : ℕ) (a b : ℤ) : ℕ → ℤ × ℤ
  | 0 => (up deg, up deg)
  | i + 1 => ivStep a b (up (deg - 1 - i) * 2 ^ (k * (i + 1))) (iv up deg k a b i)

/-- `mpz_poly_eval_interval`, evaluate.c 157-249; `len` is `deg + 1`.  `none` is `exit`: ends of opposite signs, or
`val_do > val_up` after a turn. -/
def evalInterval (up : ℕ → ℤ) (len k : ℕ) (a b : ℤ) : Option (ℤ × ℤ) :=
  match len with
  | 0 => some (0, 0)
  | 1 => some (up 0, up 0)
  | deg + 1 =>
    if a.sign ≠ b.sign ∧ a ≠ 0 ∧ b ≠ 0 then none
    else if ∃ i ∈ List.range deg, (iv up deg k a b (i + 1)).2 < (iv up deg k a b (i + 1)).1 then none
    else some (iv up deg k a b deg)

/-- `newvalue_denom`, msolve.c 2911-2928, for the interval `[r / 2^k, (r + 1) / 2^k]`; the returned value, `den_do` and
`den_up`. -/
def newvalueDenom (den : ℕ → ℤ) (dlen : ℕ) (r : ℤ) (k corr : ℕ) : Option (Bool × ℤ × ℤ) :=
  match evalInterval den dlen k r (r + 1) with
  | none => none
  | some s =>
    if s.2 < s.1 then none
    else
      let lo := (s.1 * 2 ^ corr).fdiv (2 ^ (k * (dlen - 1)))
      let hi := cdivq (s.2 * 2 ^ corr) (2 ^ (k * (dlen - 1)))
      some (decide (s.1.sign ≠ s.2.sign) || decide (lo = 0) || decide (hi = 0), lo, hi)

/-! ### Tables of powers -/

/-- `xdo[i]`, `xup[i]` before the shifts, `generate_table_values_full`, msolve.c 2763-2788. -/
def table (r : ℤ) : ℕ → ℤ × ℤ
  | 0 => (1, 1)
  | i + 1 =>
    let s := table r i
    if 0 ≤ r then (s.1 * r, s.2 * (r + 1))
    else if (i + 1) % 2 = 1 then (s.2 * r, s.1 * (r + 1))
    else (s.2 * (r + 1), s.1 * r)

/-- `xdo[i]`, `xup[i]` at the end, msolve.c 2789-2799 (no shift to the right for `i = 0`). -/
def tableFull (r : ℤ) (k corr i : ℕ) : ℤ × ℤ :=
  (((table r i).1 * 2 ^ corr).fdiv (2 ^ (k * i)), cdivq ((table r i).2 * 2 ^ corr) (2 ^ (k * i)))

/-- One turn of the loop of `mpz_scalar_product_interval`, evaluate.c 283-296. -/
def scalarStep (up : ℕ → ℤ) (t : ℕ → ℤ × ℤ) (s : ℤ × ℤ) (i : ℕ) : ℤ × ℤ :=
  if 0 ≤ up i then (s.1 + up i * (t i).1, s.2 + up i * (t i).2) else (s.1 + up i * (t i).2, s.2 + up i * (t i).1)

/-- `mpz_scalar_product_interval`, evaluate.c 260-298: `val_do`, `val_up`. -/
def scalarProd (up : ℕ → ℤ) (len : ℕ) (t : ℕ → ℤ × ℤ) (corr : ℕ) : ℤ × ℤ :=
  match len with
  | 0 => (0, 0)
  | 1 => (up 0 * 2 ^ corr, up 0 * 2 ^ corr)
  | deg + 1 => (List.range (deg + 1)).foldl (scalarStep up t) (0, 0)

/-! ### Division -/

/-- The directed division, msolve.c 3055-3094: three tests one after the other in each branch; `old` are the former
values of `v1`, `v2`. -/
def boxDiv (old : ℤ × ℤ) (vd vu dd du cf : ℤ) : ℤ × ℤ :=
  if 0 ≤ dd ∧ 0 ≤ du then
    let s := if 0 ≤ vd ∧ 0 ≤ vu then (vd.fdiv (du * cf), cdivq vu (dd * cf)) else old
    let s := if vd ≤ 0 ∧ 0 ≤ vu then (vd.fdiv (dd * cf), cdivq vu (dd * cf)) else s
    if vd ≤ 0 ∧ vu ≤ 0 then (vd.fdiv (dd * cf), cdivq vu (du * cf)) else s
  else
    let s := if 0 ≤ vd ∧ 0 ≤ vu then (vu.fdiv (du * cf), cdivq vd (dd * cf)) else old
    let s := if vd ≤ 0 ∧ 0 ≤ vu then (vu.fdiv (du * cf), cdivq vd (du * cf)) else s
    if vd ≤ 0 ∧ vu ≤ 0 then (vu.fdiv (dd * cf), cdivq vd (du * cf)) else s

/-! ### One real root -/

/-- The denominator of a parametrization, msolve.c 2469-2475. -/
def denomOf (elim : ℕ → ℤ) : ℕ → ℤ := fun i => elim (i + 1) * (i + 1)

/-- One coordinate of `single_exact_real_root_param`, msolve.c 2666-2691. -/
def exactCoord (p : Param) (numer : ℤ) (k prec : ℕ) (q : Coord) : Option Box :=
  let den := eval2exp p.denom p.dlen numer k
  if p.dlen < q.len ∨ den * q.cf = 0 then none
  else
    let v := -eval2exp q.c q.len numer k * 2 ^ (k * (p.dlen - q.len) + prec)
    some ⟨v.fdiv (den * q.cf), cdivq v (den * q.cf), prec, prec, true⟩

/-- `single_exact_real_root_param`, msolve.c 2654-2698. -/
def exactPoint (p : Param) (numer : ℤ) (k prec : ℕ) : Option (List Box) :=
  (p.coords.mapM (exactCoord p numer k prec)).map fun l => l ++ [⟨numer, numer, k, k, true⟩]

/-- `dec`, msolve.c 3041-3046. -/
def decOf (prec : ℕ) (vu du cf : ℤ) : ℕ :=
  let nbits : ℤ := bitSize vu - bitSize du - bitSize cf
  if nbits ≤ 0 then ((prec : ℤ) - nbits).toNat else prec

/-- One coordinate of a root that is not exact, msolve.c 3032-3106; `dd`, `du` enclose the denominator. -/
def openCoord (p : Param) (numer : ℤ) (k corr prec : ℕ) (dd du : ℤ) (old : ℤ × ℤ) (q : Coord) : Option Box :=
  if p.nsols < q.len ∨ dd * q.cf = 0 ∨ du * q.cf = 0 then none
  else
    let s := scalarProd q.c q.len (tableFull numer k corr) corr
    let dec := decOf prec (-s.1) du q.cf
    let vd := -s.2 * 2 ^ dec
    let vu := -s.1 * 2 ^ dec
    if vu < vd then none
    else
      let v := boxDiv old vd vu dd du q.cf
      some ⟨v.1, v.2, dec, dec, false⟩

/-- The loop over the coordinates (`v1` and `v2` are kept from one turn to the next). -/
def openCoords (p : Param) (numer : ℤ) (k corr prec : ℕ) (dd du : ℤ) : ℤ × ℤ → List Coord → Option (List Box)
  | _, [] => some []
  | old, q :: l =>
    match openCoord p numer k corr prec dd du old q with
    | none => none
    | some b => (openCoords p numer k corr prec dd du (b.vdo, b.vup) l).map fun bs => b :: bs

/-- Outcomes with a bound for the number of turns. -/
inductive Res (α : Type*) where
  | fuel | exit
  | done (a : α)
  deriving DecidableEq

/-- The refinement of the root, msolve.c 2957-2996.  (`polelim` is a copy of the eliminating polynomial, restored
after a change of its degree, 2998-3003.) -/
def refineRt (shl : ℕ → ℤ) (fuel : ℕ) (p : Param) (rt : Ival) : Res Ival :=
  if 0 ≤ rt.numer then
    let v := valuesAtBounds p.elim p.nsols rt.numer rt.k
    match qir shl fuel (2 * rt.k) fuel 2 ⟨p.elim, p.nsols, rt, v.1, v.2⟩ with
    | .fuel => .fuel
    | .exit => .exit
    | .done t => .done t.rt
  else
    let pos : Ival := ⟨-(rt.numer + 1), rt.k, rt.exact⟩
    let v := valuesAtBounds (altSign p.elim) p.nsols pos.numer pos.k
    match qir shl fuel (2 * pos.k + p.nsols) fuel 2 ⟨altSign p.elim, p.nsols, pos, v.1, v.2⟩ with
    | .fuel => .fuel
    | .exit => .exit
    | .done t => .done (if t.rt.exact = true then ⟨-t.rt.numer, t.rt.k, true⟩ else ⟨-(t.rt.numer + 1), t.rt.k, false⟩)

/-- The loop msolve.c 2951-3022: the final record with `corr`, `den_do`, `den_up` (zero for an exact root). -/
def denLoop (shl : ℕ → ℤ) (fuel : ℕ) (p : Param) : ℕ → Ival → ℕ → Res (Ival × ℕ × ℤ × ℤ)
  | 0, _, _ => .fuel
  | n + 1, rt, corr =>
    if rt.exact = true then .done (rt, 0, 0, 0)
    else if rt.k < 0 then .exit
    else
      match newvalueDenom p.denom p.dlen rt.numer rt.k.toNat corr with
      | none => .exit
      | some (true, _, _) =>
        match refineRt shl fuel p rt with
        | .fuel => .fuel
        | .exit => .exit
        | .done rt' => denLoop shl fuel p n rt' (2 * corr)
      | some (false, lo, hi) => .done (rt, corr, lo, hi)

/-- What follows the loop, msolve.c 3025-3114. -/
def finishPoint (p : Param) (prec : ℕ) (s : Ival × ℕ × ℤ × ℤ) : Option (List Box) :=
  if s.1.k < 0 then none
  else
    let k := s.1.k.toNat
    if s.1.exact = true then exactPoint p s.1.numer k (max prec k)
    else
      (openCoords p s.1.numer k s.2.1 prec s.2.2.1 s.2.2.2 (0, 0) p.coords).map fun l =>
        l ++ [⟨s.1.numer, s.1.numer + 1, k, k, false⟩]

/-- `lazy_single_real_root_param`, msolve.c 2930-3114. -/
def lazySingle (shl : ℕ → ℤ) (fuel : ℕ) (p : Param) (prec : ℕ) (rt : Ival) : Res (List Box) :=
  match denLoop shl fuel p fuel rt (2 * (p.nsols + rt.k.toNat)) with
  | .fuel => .fuel
  | .exit => .exit
  | .done s =>
    match finishPoint p prec s with
    | none => .exit
    | some l => .done l

/-! ### All real roots -/

/-- The loops msolve.c 3122-3126 and 3136-3140: the number of times two divides the value; `n` bounds the number of
turns. -/
def twoLoop (v : ℤ) : ℕ → ℕ → ℕ
  | 0, b => b
  | n + 1, b => if v ≠ 0 ∧ v % 2 ^ (b + 1) = 0 then twoLoop v n (b + 1) else b

/-- One bound, msolve.c 3121-3132 and 3134-3146 (a number with `n` bits is divisible by two less than `n` times). -/
def normBound (v : ℤ) (k : ℕ) : ℤ × ℕ :=
  let b := min (twoLoop v (bitSize v) 0) k
  if b ≠ 0 then (v.tdiv (2 ^ b), k - b) else (v, k)

/-- `normalize_points`, msolve.c 3116-3147, for one coordinate. -/
def normBox (b : Box) : Box :=
  { b with
    vup := (normBound b.vup b.kup).1
    kup := (normBound b.vup b.kup).2
    vdo := (normBound b.vdo b.kdo).1
    kdo := (normBound b.vdo b.kdo).2 }

/-- `extract_real_roots_param`, msolve.c 3149-3224. -/
def extractRoots (shl : ℕ → ℤ) (fuel : ℕ) (p : Param) (prec : ℕ) : List Ival → Res (List (List Box))
  | [] => .done []
  | rt :: l =>
    match lazySingle shl fuel p prec rt with
    | .fuel => .fuel
    | .exit => .exit
    | .done b =>
      match extractRoots shl fuel p prec l with
      | .fuel => .fuel
      | .exit => .exit
      | .done bs => .done (b.map normBox :: bs)

/-- The precision of the isolation, msolve.c 3231-3241: `128` bits and the largest size of a coefficient over 32 at
least. -/
def isoPrec (p : Param) (precision : ℕ) : ℕ :=
  let m := (p.coords.map fun q => if q.len = 0 then 0 else maxBsize q.c (q.len - 1)).foldl max (maxBsize p.elim p.nsols)
  max precision (128 + m / 32)

/-- `isolate_real_roots_param`, msolve.c 3226-3287. -/
def isolateParam (shl : ℕ → ℤ) (fuel : ℕ) (p : Param) (precision : ℕ) : Res (List (List Box)) :=
  match realRoots shl fuel (isoPrec p precision) p.elim p.nsols with
  | .fuel => .fuel
  | .exit => .exit
  | .hang => .exit
  | .done roots _ _ => extractRoots shl fuel p precision roots

/-! ### Display -/

/-- One bound, msolve.c 2595-2602, 2604-2611. -/
def showBound (v : ℤ) (k : ℕ) : String :=
  toString v ++ if k ≠ 0 ∧ v ≠ 0 then " / 2" ++ (if 1 < k then "^" ++ toString k else "") else ""

/-- One coordinate. -/
def showBox (b : Box) : String := "[" ++ showBound b.vdo b.kdo ++ ", " ++ showBound b.vup b.kup ++ "]"

/-- The coordinates but the last are followed by a comma, msolve.c 2593-2636. -/
def showBoxes : List Box → String
  | [] => ""
  | [b] => showBox b
  | b :: l => showBox b ++ ", " ++ showBoxes l

/-- `display_real_point`, msolve.c 2591-2638. -/
def showPoint (bs : List Box) : String := "[" ++ showBoxes bs ++ "]"

/-- The loop msolve.c 2643-2649. -/
def showList : List (List Box) → String
  | [] => ""
  | [b] => showPoint b
  | b :: l => showPoint b ++ ", " ++ showList l

/-- `display_real_points`, msolve.c 2640-2652. -/
def showPoints (l : List (List Box)) : String := "[1,\n[" ++ showList l ++ "]\n]"

end Verif.RealPoints
