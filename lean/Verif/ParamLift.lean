import Verif.Lift
import Verif.CRT
import Verif.VecRecon
import Mathlib.Data.Nat.NthRoot.Defs
import Mathlib.Data.Nat.Sqrt
import Mathlib.Data.Nat.Prime.Int
import Mathlib.Data.List.GetD

/-!
The lifting of a parametrization over the rationals: Chinese remaindering, witness coefficients, rational reconstruction.
Source: src/msolve/msolve.c 776-1000, 1063-1135, 1172-1395, 2160-2250, 2395-2480; src/msolve/lifting.c 405-440, 520-720.

The option to lift the multiplication matrix (`lift_matrix`, 0 unless asked for) is left out: then `nr` is 0, the witness
coefficients of the matrix are reconstructed but not used.  GMP integers are `ℤ`, `mpz_sqrt` is `Nat.sqrt`, `mpz_root` is
`Nat.nthRoot`; a division by zero ends the program and is `none`.
-/
namespace Verif.ParamLift
open Verif.ModInverse Verif.RatRecon Verif.CRT Verif.VecRecon Verif.Lift

/-! ### Rational reconstruction of a vector -/

/-- The bounds in `rrec_data_t` and `*maxrec`. -/
structure Rec where
  N : ℤ
  D : ℤ
  maxrec : ℕ

/-- A loop over indices that stops at the first failure: that index, or the results. -/
def firstFail (f : ℕ → Option (ℤ × ℤ)) : List ℕ → ℕ ⊕ List (ℤ × ℤ)
  | [] => .inr []
  | i :: l =>
    match f i with
    | none => .inl i
    | some nd =>
      match firstFail f l with
      | .inl j => .inl j
      | .inr r => .inr (nd :: r)

/-- The loop over the indices below `*maxrec`, msolve.c 1101-1115: `k` is one more than the index, `nl` is `newlcm`, `acc` are
the fractions from the index `k` on.  `inl`: the index of the failure. -/
def loLoop (pol : ℕ → ℤ) (m gden N D : ℤ) : ℕ → ℤ → List (ℤ × ℤ) → Option (ℕ ⊕ List (ℤ × ℤ))
  | 0, _, acc => some (.inr acc)
  | k + 1, nl, acc =>
    match ok (ratreconwden (pol k) m nl N D) with
    | none => some (.inl k)
    | some nd =>
      if gden = 0 then none
      else
        let rden := nl / gden
        loLoop pol m gden N D k (Int.lcm nl rden : ℕ) ((nd.1, nd.2 * rden) :: acc)

/-- `rational_reconstruction_mpz_ptr_with_denom`, msolve.c 1063-1135, with all that it changes: the entries written to
`recons` and the denominator, the bounds, `*maxrec`.  The code assumes that `*maxrec` is below the length (or zero). -/
def reconVec (pol : ℕ → ℤ) (len : ℕ) (m gden : ℤ) (r : Rec) : Option (Option (List ℤ × ℤ) × Rec) :=
  if len ≤ r.maxrec ∧ r.maxrec ≠ 0 then none
  else
    match firstFail (fun i => ok (ratreconwden (pol i) m gden r.N r.D)) (List.range' r.maxrec (max 1 (len - r.maxrec))) with
    | .inl i => some (none, { r with maxrec := if i = r.maxrec then i else i - 1 })
    | .inr hi =>
      let lcm := lcmDen hi
      let r : Rec := { r with D := r.D / lcm, N := r.N * lcm }
      match loLoop pol m gden r.N r.D r.maxrec (lcm * gden) hi with
      | none => none
      | some (.inl i) => some (none, { r with maxrec := i + 1 })
      | some (.inr l) =>
        let c := common l
        some (some (c.1.take len, c.2), r)

/-- The attempts with changed bounds, msolve.c 1268-1292, 1324-1366: stops at the first success. -/
def attempts (pol : ℕ → ℤ) (len : ℕ) (m gden : ℤ) : List (Rec → Rec) → Rec → Option (Option (List ℤ × ℤ) × Rec)
  | [], r => some (none, r)
  | f :: fs, r =>
    match reconVec pol len m gden (f r) with
    | none => none
    | some (some x, r) => some (some x, r)
    | some (none, r) => attempts pol len m gden fs r

/-! ### The state -/

/-- A modular parametrization (`param_t`, after `normalize_nmod_param`) with its prime: lengths and arrays.  The arrays are
read also beyond the length (msolve.c 979-983). -/
structure Img where
  p : ℕ
  elen : ℕ
  e : ℕ → ℕ
  clen : ℕ → ℕ
  c : ℕ → ℕ → ℕ

/-- What does not change. `inv` is FLINT's `n_invmod`, `junk` what `mpz_invert` leaves when there is no inverse. -/
structure Cfg where
  nsols : ℕ
  nc : ℕ
  tridx : ℕ
  detidx : ℕ
  inv : ℤ → ℤ → ℤ
  junk : ℤ

/-- `tmp_mpz_param` (`crtE`, `crtC`), `mpz_param` (`E`, `C`, `cf`), `is_lifted`, the fields of `trace_det` for the two witness
coefficients of the eliminating polynomial, `modulus`, `*guessed_den`, `*maxrec`. -/
structure PSt where
  modulus : ℕ
  crtE : ℕ → ℤ
  crtC : ℕ → ℕ → ℤ
  E : ℕ → ℤ
  C : ℕ → ℕ → ℤ
  cf : ℕ → ℤ
  lifted : ℕ → Bool
  tcrt : ℤ
  dcrt : ℤ
  tnum : ℤ
  tden : ℤ
  dnum : ℤ
  dden : ℤ
  doneT : ℕ
  doneD : ℕ
  gden : ℤ
  maxrec : ℕ

/-- The number of solutions, `trace_idx` and `det_idx`, msolve.c 2184-2196. -/
def tridx (g : Img) : ℕ :=
  let rec go : ℕ → ℕ
    | 0 => 0
    | i + 1 => if g.e (i + 1) = 0 then go i else i + 1
  go (3 * (g.elen - 1) / 4)

/-- `det_idx`, msolve.c 2192-2196: `fuel` bounds the steps. -/
def detidx (g : Img) : ℕ :=
  let rec go : ℕ → ℕ → ℕ
    | 0, i => i
    | f + 1, i => if g.e i = 0 ∧ i + 2 < g.elen then go f (i + 1) else i
  go g.elen (2 * (g.elen - 1) / 3)

/-- The initial data, msolve.c 776-806 (`initialize_mpz_param`), 947-972 (`set_mpz_param_nmod`), 2173-2250; lifting.c 239-249. -/
def init (c : Cfg) (g : Img) : PSt where
  modulus := g.p
  crtE := fun i => g.e i
  crtC := fun i j => if j < g.clen i then (g.c i j : ℤ) else 0
  E := fun _ => 0
  C := fun _ _ => 0
  cf := fun _ => 1
  lifted := fun _ => false
  tcrt := g.e c.tridx
  dcrt := g.e c.detidx
  tnum := 0
  tden := 1
  dnum := 0
  dden := 1
  doneT := 0
  doneD := 0
  gden := 1
  maxrec := 0

/-! ### Chinese remaindering -/

/-- `crt_lift_mpz_upoly`, msolve.c 973-984. -/
def crtUpoly (inv : ℤ → ℤ → ℤ) (len : ℕ) (f : ℕ → ℤ) (m : ℕ) (g : ℕ → ℕ) (p : ℕ) : Option (ℕ → ℤ) :=
  ((List.range len).mapM fun i => crt inv (f i) m (g i) p (m * p) false).map fun l i => l.getD i (f i)

/-- `crt_lift_mpz_param`, msolve.c 987-1000, and the two witness coefficients in `crt_lift_trace_det`, lifting.c 417-429. -/
def crtAll (c : Cfg) (s : PSt) (g : Img) : Option PSt :=
  (crtUpoly c.inv (c.nsols + 1) s.crtE s.modulus g.e g.p).bind fun E =>
  ((List.range c.nc).mapM fun i => crtUpoly c.inv c.nsols (s.crtC i) s.modulus (g.c i) g.p).bind fun C =>
  (crt c.inv s.tcrt s.modulus (g.e c.tridx) g.p (s.modulus * g.p) false).bind fun t =>
  (crt c.inv s.dcrt s.modulus (g.e c.detidx) g.p (s.modulus * g.p) false).map fun d =>
    { s with crtE := E, crtC := fun i => C.getD i (s.crtC i), tcrt := t, dcrt := d, modulus := s.modulus * g.p }

/-! ### The witness coefficients -/

/-- `check_trace`, `check_det`, lifting.c 637-665. -/
def checkFrac (num den : ℤ) (a p : ℕ) : Option Bool :=
  (modInv32 (den % p) p).map fun lc => decide ((num % p) * lc % 2 ^ 64 % p = a)

/-- `check_trace_det_data`, lifting.c 679-704, without matrix lifting. -/
def checkTD (c : Cfg) (s : PSt) (g : Img) : Option PSt :=
  (if s.doneT = 1 then
    (checkFrac s.tnum s.tden (g.e c.tridx) g.p).map fun b =>
      if b then { s with doneT := 2, maxrec := c.detidx } else { s with doneT := 0 }
  else some s).bind fun s =>
  if s.doneD = 1 then
    (checkFrac s.dnum s.dden (g.e c.detidx) g.p).map fun b =>
      if b then { s with doneD := 2, maxrec := c.detidx } else { s with doneD := 0 }
  else some s

/-- The fraction `n / d` with the common divisor removed, lifting.c 595-598, 616-619. -/
def lowest (n d : ℤ) : Option (ℤ × ℤ) :=
  if Int.gcd n d = 0 then none else some (n / (Int.gcd n d : ℕ), d / (Int.gcd n d : ℕ))

/-- `rat_recon_trace_det`, lifting.c 532-634, without linear forms and matrix.  `N` is the bound for numerator and
denominator. -/
def recTD (s : PSt) (N : ℤ) : Option PSt :=
  if 1 < s.doneD ∧ 1 < s.doneT then some s
  else
    let rest := fun s : PSt =>
      if s.doneD < 2 ∧ s.doneT ≠ 0 then
        match ok (ratreconwden s.dcrt s.modulus s.gden N N) with
        | none => some { s with gden := 1, doneD := 0 }
        | some nd => (lowest nd.1 (nd.2 * s.gden)).map fun q => { s with dnum := q.1, dden := q.2, doneD := 1 }
      else some s
    if s.doneT < 2 then
      match ok (ratreconwden s.tcrt s.modulus s.gden N N) with
      | none => some { s with doneT := 0 }
      | some nd => (lowest nd.1 (nd.2 * s.gden)).bind fun q => rest { s with tnum := q.1, tden := q.2, doneT := 1 }
    else rest s

/-! ### Reconstruction of the parametrization -/

/-- `*guessed_den`, msolve.c 1234-1249. -/
def guess (s : PSt) : ℤ :=
  if 1 < s.doneT then (if 1 < s.doneD then (Int.lcm s.tden s.dden : ℕ) else s.tden)
  else if 1 < s.doneD then s.dden else s.gden

/-- The bounds of the two attempts for the eliminating polynomial, msolve.c 1270-1272, 1277-1280. -/
def elimBounds (m : ℕ) (k : ℕ) (r : Rec) : Rec :=
  let D := Nat.nthRoot k m
  { r with D := D, N := (m / D / 2 : ℕ) }

/-- The bounds of the second and the third attempt for a coordinate, msolve.c 1333-1336, 1345-1347. -/
def coordBounds2 (m nc : ℕ) (r : Rec) : Rec := { r with D := (2 ^ nc : ℕ), N := (m / 2 / 2 ^ nc : ℕ) }

def coordBounds3 (m : ℕ) (r : Rec) : Rec :=
  let N := m / 2
  let D := Nat.nthRoot 16 N
  { r with D := D, N := (N / D : ℕ) }

/-- What a reconstruction writes: the first entries of an array. -/
def write (l : List ℤ) (f : ℕ → ℤ) : ℕ → ℤ := fun i => l.getD i (f i)

/-- The reconstruction of the eliminating polynomial, msolve.c 1268-1298: `false` if it failed. -/
def elimPart (s : PSt) (g : Img) (r : Rec) : Option (Bool × PSt) :=
  if s.lifted 0 = true then some (true, s)
  else
    match attempts s.crtE g.elen s.modulus s.gden [elimBounds s.modulus 3, elimBounds s.modulus 16] r with
    | none => none
    | some (none, r) => some (false, { s with maxrec := r.maxrec })
    | some (some (l, _), r) =>
      some (true, { s with E := write l s.E, lifted := Function.update s.lifted 0 true, maxrec := r.maxrec })

/-- `*maxrec` for a coordinate, msolve.c 1321-1322: `det_idx` is unsigned. -/
def coordStart (c : Cfg) (g : Img) (i : ℕ) : ℕ := min ((c.detidx + (2 ^ 32 - 1)) % 2 ^ 32) (g.clen i - 1)

/-- The loop over the coordinates, msolve.c 1319-1385: on a list of indices, with the bounds and the numerator of the
variable `c` (line 1305), which is made canonical together with the denominator found. -/
def coordLoop (cfg : Cfg) (g : Img) : List ℕ → PSt → Rec → ℤ → Option (Bool × PSt)
  | [], s, _, _ => some (true, s)
  | i :: l, s, r, cn =>
    let r := { r with maxrec := coordStart cfg g i }
    let s := { s with maxrec := r.maxrec }
    if s.lifted 0 = true ∧ s.lifted (i + 1) = false then
      match attempts (s.crtC i) (g.clen i) s.modulus s.gden [id, coordBounds2 s.modulus cfg.nc, coordBounds3 s.modulus] r with
      | none => none
      | some (none, r) => some (false, { s with maxrec := r.maxrec })
      | some (some (w, L), r) =>
        if L = 0 then none
        else
          let cn := cn * Int.sign L
          coordLoop cfg g l
            { s with C := Function.update s.C i fun j => if j < cfg.nsols then write w (s.C i) j * cn else write w (s.C i) j,
                     cf := Function.update s.cf i (Int.natAbs L : ℕ),
                     lifted := Function.update s.lifted (i + 1) true,
                     maxrec := r.maxrec } r cn
    else coordLoop cfg g l s r cn

/-- `new_rational_reconstruction`, msolve.c 1172-1395. -/
def recon (c : Cfg) (doit : Bool) (s : PSt) (g : Img) : Option (Bool × PSt) :=
  (checkTD c s g).bind fun s =>
  (crtAll c s g).bind fun s =>
  if doit = false then some (false, s)
  else
    let N : ℤ := (Nat.sqrt ((s.modulus - 1) / 2) : ℕ)
    let s := { s with gden := guess s }
    (if s.doneT < 2 ∨ s.doneD < 2 then recTD s N else some s).bind fun s =>
    if 1 < s.doneT ∧ 1 < s.doneD then
      (elimPart s g ⟨N, N, s.maxrec⟩).bind fun bs =>
      if bs.1 = false then some (false, bs.2)
      else
        let s := { bs.2 with gden := bs.2.E c.nsols * c.nsols }
        let N : ℤ := (Nat.sqrt (s.modulus / 2) : ℕ)
        coordLoop c g (List.range c.nc) s ⟨N, N, s.maxrec⟩ 1
    else some (false, s)

/-! ### The check and the loop -/

/-- `check_param_modular`, msolve.c 1451-1490: the result, and the state with the flags cleared. -/
def check (c : Cfg) (s : PSt) (g : Img) : Option (Bool × PSt) :=
  match checkUnit (c.nsols + 1) s.E g.e g.p with
  | none => none
  | some 0 =>
    match (List.range c.nc).find? fun i => checkCoord c.junk (g.clen i) (s.C i) (s.cf i) (s.E c.nsols) c.nsols (g.c i) g.p with
    | none => some (false, s)
    | some i => some (true, { s with lifted := Function.update s.lifted (i + 1) false })
  | some _ => some (true, { s with lifted := fun i => if i ≤ c.nc then false else s.lifted i, doneT := 0, doneD := 0 })

/-- The loop of `msolve_trace_qq` (`Lift.lift`, msolve.c 2254-2467) with these functions.  A crash is the state `none`, which
no check accepts. -/
def chk (c : Cfg) (m : Option PSt) (g : Img) : Bool :=
  match m with
  | none => true
  | some s => match check c s g with | none => true | some r => r.1

def clear (c : Cfg) (m : Option PSt) (g : Img) : Option PSt := m.bind fun s => (check c s g).map Prod.snd

def step (c : Cfg) (doit : Bool) (m : Option PSt) (g : Img) : Bool × Option PSt :=
  match m.bind fun s => recon c doit s g with
  | none => (false, none)
  | some r => (r.1, some r.2)

/-- The loop, and the denominator set after it, msolve.c 2469-2475. -/
def run (c : Cfg) (g : Img) (rounds : List (Bool × List (ℕ × Option Img))) : Outcome (Option PSt) :=
  lift (chk c) (clear c) (step c) (start (some (init c g)) g.p) rounds

def denom (s : PSt) (i : ℕ) : ℤ := s.E (i + 1) * (i + 1)

/-! ### Lemmas: reconstruction of a vector -/

/-- The fraction `nd` is `pol i * gden` modulo `m`. -/
def Frac (pol : ℕ → ℤ) (m gden : ℤ) (i : ℕ) (nd : ℤ × ℤ) : Prop := nd.2 ≠ 0 ∧ m ∣ nd.2 * (pol i * gden) - nd.1

theorem firstFail_inr {f : ℕ → Option (ℤ × ℤ)} : ∀ {l : List ℕ} {r : List (ℤ × ℤ)}, firstFail f l = .inr r →
    List.Forall₂ (fun i nd => f i = some nd) l r
  | [], r, h => by
    simp only [firstFail, Sum.inr.injEq] at h
    subst h; exact .nil
  | i :: l, r, h => by
    simp only [firstFail] at h
    cases hf : f i with
    | none => rw [hf] at h; cases h
    | some nd =>
      rw [hf] at h
      cases hl : firstFail f l with
      | inl j => rw [hl] at h; cases h
      | inr r' =>
        rw [hl] at h
        simp only [Sum.inr.injEq] at h
        subst h
        exact .cons hf (firstFail_inr hl)

theorem loLoop_inr {pol : ℕ → ℤ} {m gden N D : ℤ} (hm : 1 < m) (hN : 0 ≤ N) : ∀ {k : ℕ} {nl : ℤ} {acc l : List (ℤ × ℤ)},
    (gden ≠ 0 → nl ≠ 0 ∧ gden ∣ nl) → List.Forall₂ (Frac pol m gden) (List.range' k acc.length) acc →
    loLoop pol m gden N D k nl acc = some (.inr l) →
    l.length = k + acc.length ∧ List.Forall₂ (Frac pol m gden) (List.range' 0 l.length) l ∧ (k = 0 → l = acc)
  | 0, nl, acc, l, _, hacc, h => by
    simp only [loLoop, Option.some.injEq, Sum.inr.injEq] at h
    subst h
    exact ⟨by omega, hacc, fun _ => rfl⟩
  | k + 1, nl, acc, l, hnl, hacc, h => by
    simp only [loLoop] at h
    cases hr : ok (ratreconwden (pol k) m nl N D) with
    | none => rw [hr] at h; cases h
    | some nd =>
      rw [hr] at h
      simp only at h
      split at h
      · cases h
      · rename_i hg
        obtain ⟨h1, q, rfl⟩ := hnl hg
        have hq : q ≠ 0 := by rintro rfl; simp at h1
        rw [Int.mul_ediv_cancel_left _ hg] at h
        have hs := ratreconwden_sound (pol k) m (gden * q) N D hm hN nd (ok_some hr)
        have ih := loLoop_inr hm hN (k := k) (l := l) (acc := (nd.1, nd.2 * q) :: acc) (nl := (Int.lcm (gden * q) q : ℕ))
          (fun _ => ⟨by
            have : Int.lcm (gden * q) q ≠ 0 := Int.lcm_ne_zero h1 hq
            exact_mod_cast this, (Dvd.intro _ rfl).trans (Int.dvd_lcm_left _ _)⟩)
          (by
            rw [List.length_cons, List.range'_succ]
            refine .cons ⟨mul_ne_zero hs.2.2.1.ne' hq, ?_⟩ hacc
            have : nd.2 * q * (pol k * gden) - nd.1 = nd.2 * (pol k * (gden * q)) - nd.1 := by ring
            simpa only [this] using hs.1) h
        refine ⟨by rw [ih.1, List.length_cons]; omega, ih.2.1, fun h0 => by omega⟩

theorem foldl_lcm_ne (l : List (ℤ × ℤ)) (a : ℤ) (ha : a ≠ 0) (hl : ∀ nd ∈ l, nd.2 ≠ 0) :
    l.foldl (fun a nd => (Int.lcm a nd.2 : ℤ)) a ≠ 0 := by
  induction l generalizing a with
  | nil => exact ha
  | cons nd l ih =>
    rw [List.foldl_cons]
    refine ih _ ?_ fun x hx => hl x (List.mem_cons_of_mem _ hx)
    have : Int.lcm a nd.2 ≠ 0 := Int.lcm_ne_zero ha (hl nd List.mem_cons_self)
    exact_mod_cast this

theorem foldl_lcm_nonneg (l : List (ℤ × ℤ)) (a : ℤ) (ha : 0 ≤ a) : 0 ≤ l.foldl (fun a nd => (Int.lcm a nd.2 : ℤ)) a := by
  induction l generalizing a with
  | nil => exact ha
  | cons nd l ih => rw [List.foldl_cons]; exact ih _ (by positivity)

theorem lcmDen_pos' {l : List (ℤ × ℤ)} (hl : ∀ nd ∈ l, nd.2 ≠ 0) (h1 : l.length = 1 → ∀ nd ∈ l, 0 < nd.2) : 0 < lcmDen l := by
  match l with
  | [] => simp [lcmDen]
  | [a] => exact h1 rfl a List.mem_cons_self
  | a :: b :: l =>
    refine lt_of_le_of_ne ?_ (foldl_lcm_ne _ _ (hl a List.mem_cons_self) fun x hx => hl x (List.mem_cons_of_mem _ hx)).symm
    simp only [lcmDen, List.foldl_cons]
    exact foldl_lcm_nonneg _ _ (by positivity)

theorem forall₂_range' {R : ℕ → ℤ × ℤ → Prop} {l : List (ℤ × ℤ)} (h : List.Forall₂ R (List.range' 0 l.length) l) {i : ℕ}
    (hi : i < l.length) : R i l[i] := by
  have := List.Forall₂.get h (i := i) (by simpa using hi) hi
  simpa using this

/-- A successful reconstruction: modulo `m` the entries are the multiples by `L * gden`. -/
theorem reconVec_sound {pol : ℕ → ℤ} {len : ℕ} {m gden : ℤ} {r r' : Rec} {l : List ℤ} {L : ℤ} (hm : 1 < m) (hN : 0 ≤ r.N)
    (h : reconVec pol len m gden r = some (some (l, L), r')) :
    0 < L ∧ l.length = len ∧ 0 ≤ r'.N ∧ ∀ i < len, ∀ x, l[i]? = some x → m ∣ L * (gden * pol i) - x := by
  unfold reconVec at h
  split at h
  · cases h
  · rename_i hlen
    cases hf : firstFail (fun i => ok (ratreconwden (pol i) m gden r.N r.D)) (List.range' r.maxrec (max 1 (len - r.maxrec))) with
    | inl i => rw [hf] at h; simp at h
    | inr hi =>
      rw [hf] at h
      simp only at h
      have h1 := firstFail_inr hf
      have h2 : List.Forall₂ (fun i (nd : ℤ × ℤ) => Frac pol m gden i nd ∧ 0 < nd.2)
          (List.range' r.maxrec (max 1 (len - r.maxrec))) hi := h1.imp fun i nd h => by
        have := ratreconwden_sound (pol i) m gden r.N r.D hm hN nd (ok_some h)
        exact ⟨⟨this.2.2.1.ne', this.1⟩, this.2.2.1⟩
      have hpos : ∀ nd ∈ hi, 0 < nd.2 := forall₂_right (fun _ _ h => h.2) h2
      have hL := lcmDen_pos hi hpos
      have hilen : hi.length = max 1 (len - r.maxrec) := by rw [← h2.length_eq, List.length_range']
      cases hlo : loLoop pol m gden (r.N * lcmDen hi) (r.D / lcmDen hi) r.maxrec (lcmDen hi * gden) hi with
      | none => rw [hlo] at h; simp at h
      | some x =>
        cases x with
        | inl i => rw [hlo] at h; simp at h
        | inr w =>
          rw [hlo] at h
          simp only [Option.some.injEq, Prod.mk.injEq] at h
          obtain ⟨⟨rfl, rfl⟩, rfl⟩ := h
          have hN' : 0 ≤ r.N * lcmDen hi := mul_nonneg hN hL.le
          obtain ⟨w1, w2, w3⟩ := loLoop_inr hm hN' (fun hg => ⟨mul_ne_zero hL.ne' hg, Dvd.intro_left _ rfl⟩)
            (by rw [hilen]; exact h2.imp fun _ _ h => h.1) hlo
          have hne : ∀ nd ∈ w, nd.2 ≠ 0 := forall₂_right (fun _ _ h => h.1) w2
          have hLw : 0 < lcmDen w := lcmDen_pos' hne (fun h1 => by
            rw [w1, hilen] at h1
            rw [w3 (by omega)]
            exact hpos)
          have hwl : len ≤ w.length := by rw [w1, hilen]; omega
          refine ⟨hLw, by simpa [common] using hwl, hN', fun i hi' x hx => ?_⟩
          have hiw : i < w.length := by omega
          rw [List.getElem?_take_of_lt hi'] at hx
          simp only [common, List.getElem?_map, List.getElem?_eq_getElem hiw, Option.map_some, Option.some.injEq] at hx
          obtain ⟨f1, f2⟩ := forall₂_range' w2 hiw
          obtain ⟨q, hq⟩ := lcmDen_dvd w w[i] (List.getElem_mem hiw)
          show m ∣ lcmDen w * (gden * pol i) - x
          rw [← hx, hq, Int.mul_ediv_cancel_left _ f1]
          have : w[i].2 * q * (gden * pol i) - w[i].1 * q = q * (w[i].2 * (pol i * gden) - w[i].1) := by ring
          rw [this]
          exact Dvd.dvd.mul_left f2 q

theorem reconVec_N {pol : ℕ → ℤ} {len : ℕ} {m gden : ℤ} {r r' : Rec} (hm : 1 < m) (hN : 0 ≤ r.N)
    (h : reconVec pol len m gden r = some (none, r')) : 0 ≤ r'.N := by
  unfold reconVec at h
  split at h
  · cases h
  · cases hf : firstFail (fun i => ok (ratreconwden (pol i) m gden r.N r.D)) (List.range' r.maxrec (max 1 (len - r.maxrec))) with
    | inl i =>
      rw [hf] at h
      simp only [Option.some.injEq, Prod.mk.injEq, true_and] at h
      subst h; exact hN
    | inr hi =>
      rw [hf] at h
      simp only at h
      have hpos : ∀ nd ∈ hi, 0 < nd.2 := forall₂_right (fun i nd h =>
        (ratreconwden_sound (pol i) m gden r.N r.D hm hN nd (ok_some h)).2.2.1) (firstFail_inr hf)
      cases hlo : loLoop pol m gden (r.N * lcmDen hi) (r.D / lcmDen hi) r.maxrec (lcmDen hi * gden) hi with
      | none => rw [hlo] at h; simp at h
      | some x =>
        cases x with
        | inl i =>
          rw [hlo] at h
          simp only [Option.some.injEq, Prod.mk.injEq, true_and] at h
          subst h
          exact mul_nonneg hN (lcmDen_pos hi hpos).le
        | inr w => rw [hlo] at h; simp at h

theorem attempts_sound {pol : ℕ → ℤ} {len : ℕ} {m gden : ℤ} (hm : 1 < m) : ∀ {fs : List (Rec → Rec)} {r r' : Rec} {l : List ℤ}
    {L : ℤ}, (∀ f ∈ fs, ∀ r : Rec, 0 ≤ r.N → 0 ≤ (f r).N) → 0 ≤ r.N →
    attempts pol len m gden fs r = some (some (l, L), r') →
    0 < L ∧ l.length = len ∧ 0 ≤ r'.N ∧ ∀ i < len, ∀ x, l[i]? = some x → m ∣ L * (gden * pol i) - x
  | [], r, r', l, L, _, _, h => by simp [attempts] at h
  | f :: fs, r, r', l, L, hf, hN, h => by
    simp only [attempts] at h
    have hN' := hf f List.mem_cons_self r hN
    cases hr : reconVec pol len m gden (f r) with
    | none => rw [hr] at h; cases h
    | some x =>
      obtain ⟨o, r1⟩ := x
      rw [hr] at h
      cases o with
      | none => exact attempts_sound hm (fun f' hf' => hf f' (List.mem_cons_of_mem _ hf')) (reconVec_N hm hN' hr) h
      | some y =>
        simp only [Option.some.injEq, Prod.mk.injEq] at h
        obtain ⟨rfl, rfl⟩ := h
        exact reconVec_sound hm hN' hr

/-! ### Lemmas: Chinese remaindering -/

theorem crtUpoly_spec {inv : ℤ → ℤ → ℤ} (hinv : InvSpec inv) {len : ℕ} {f f' : ℕ → ℤ} {m : ℕ} {g : ℕ → ℕ} {p : ℕ} (hm : 0 < m)
    (hp : 1 < p) (hco : Nat.Coprime m p) (hr : ∀ i < len, 0 ≤ f i ∧ f i < m) (h : crtUpoly inv len f m g p = some f') :
    ∀ i < len, 0 ≤ f' i ∧ f' i < (m * p : ℕ) ∧ f' i ≡ f i [ZMOD m] ∧ f' i ≡ g i [ZMOD p] := by
  intro i hi
  unfold crtUpoly at h
  rw [Option.map_eq_some_iff] at h
  obtain ⟨l, hl, rfl⟩ := h
  have h2 := mapM_forall₂ _ _ _ hl
  have hil : i < l.length := by rw [← h2.length_eq]; simpa using hi
  have h3 := List.Forall₂.get h2 (i := i) (by simpa using hi) hil
  simp only [List.get_eq_getElem, List.getElem_range] at h3
  obtain ⟨x, x1, x2, x3, x4, _⟩ := crt_spec inv hinv (f i) m (g i) p false (by exact_mod_cast hm) (by exact_mod_cast hp)
    (by simpa using hco) (by have := (hr i hi).1; omega) (hr i hi).2
  rw [x1, Option.some.injEq] at h3
  have e : l.getD i (f i) = x := by rw [List.getD_eq_getElem _ _ hil, ← h3]
  simp only [e]
  exact ⟨(x4 rfl).1, by push_cast; exact (x4 rfl).2, x2, x3⟩

/-! ### The invariant -/

/-- A usable image, as the modular steps deliver it: a prime, a monic eliminating polynomial of the degree fixed by the first
prime, coordinates of smaller degree. -/
structure GoodImg (c : Cfg) (g : Img) : Prop where
  prime : g.p.Prime
  elen : g.elen = c.nsols + 1
  monic : g.e c.nsols = 1
  clen : ∀ i, g.clen i ≤ c.nsols

/-- What holds after the images `hist` (the first prime comes first). -/
structure Inv (c : Cfg) (s : PSt) (hist : List Img) : Prop where
  ne : hist ≠ []
  good : ∀ g ∈ hist, GoodImg c g
  nd : (hist.map Img.p).Nodup
  mod : s.modulus = (hist.map Img.p).prod
  crtE : ∀ i ≤ c.nsols, 0 ≤ s.crtE i ∧ s.crtE i < s.modulus ∧ ∀ g ∈ hist, s.crtE i ≡ g.e i [ZMOD g.p]
  crtC : ∀ i < c.nc, ∀ j < c.nsols, 0 ≤ s.crtC i j ∧ s.crtC i j < s.modulus ∧
    ∀ g ∈ hist, j < g.clen i → s.crtC i j ≡ g.c i j [ZMOD g.p]
  lift : ∃ k, 0 < k ∧ k ≤ hist.length ∧
    (s.lifted 0 = true → ∀ g ∈ hist.take k, ∀ i ≤ c.nsols, s.E i ≡ s.E c.nsols * g.e i [ZMOD g.p]) ∧
    ∀ i < c.nc, s.lifted (i + 1) = true → s.lifted 0 = true ∧ 0 < s.cf i ∧ ∃ k' gl, k ≤ k' ∧ hist[k' - 1]? = some gl ∧
      ∀ g ∈ hist.take k', ∀ j < gl.clen i, j < g.clen i →
        s.C i j ≡ s.E c.nsols * s.cf i * c.nsols * g.c i j [ZMOD g.p]
  zero : ∀ i < c.nc, ∀ j, (∀ g ∈ hist, g.clen i ≤ j) → s.C i j = 0

/-- The fields the invariant speaks about. -/
def core (s : PSt) := (s.modulus, s.crtE, s.crtC, s.E, s.C, s.cf, s.lifted)

theorem Inv.congr {c : Cfg} {s s' : PSt} {hist : List Img} (h : Inv c s hist) (e : core s' = core s) : Inv c s' hist := by
  simp only [core, Prod.mk.injEq] at e
  obtain ⟨e1, e2, e3, e4, e5, e6, e7⟩ := e
  refine ⟨h.ne, h.good, h.nd, by rw [e1]; exact h.mod, by rw [e1, e2]; exact h.crtE, by rw [e1, e3]; exact h.crtC, ?_, ?_⟩
  · rw [e4, e5, e6, e7]; exact h.lift
  · rw [e5]; exact h.zero

theorem Inv.setMaxrec {c : Cfg} {s : PSt} {hist : List Img} (h : Inv c s hist) (k : ℕ) : Inv c { s with maxrec := k } hist :=
  h.congr rfl

theorem Inv.mod_pos {c : Cfg} {s : PSt} {hist : List Img} (h : Inv c s hist) : 1 < s.modulus := by
  rw [h.mod]
  obtain ⟨g, l, rfl⟩ := List.exists_cons_of_ne_nil h.ne
  rw [List.map_cons, List.prod_cons]
  have h1 := (h.good g List.mem_cons_self).prime.one_lt
  have h2 : 0 < (l.map Img.p).prod := List.prod_pos fun x hx => by
    obtain ⟨y, hy, rfl⟩ := List.mem_map.mp hx
    exact (h.good y (List.mem_cons_of_mem _ hy)).prime.pos
  calc 1 < g.p := h1
    _ ≤ g.p * (l.map Img.p).prod := Nat.le_mul_of_pos_right _ h2

theorem Inv.dvd {c : Cfg} {s : PSt} {hist : List Img} (h : Inv c s hist) {g : Img} (hg : g ∈ hist) : (g.p : ℤ) ∣ (s.modulus : ℤ) := by
  rw [h.mod]
  exact_mod_cast List.dvd_prod (List.mem_map_of_mem hg)

theorem init_inv {c : Cfg} {g : Img} (hg : GoodImg c g) (he : ∀ i ≤ c.nsols, g.e i < g.p) (hc : ∀ i < c.nc, ∀ j < g.clen i, g.c i j < g.p) :
    Inv c (init c g) [g] := by
  have hp := hg.prime.pos
  refine ⟨by simp, by simpa using hg, by simp, by simp [init], fun i hi => ?_, fun i hi j hj => ?_, ⟨1, by simp, by simp, ?_, ?_⟩, ?_⟩
  · exact ⟨by simp [init], by simpa [init] using he i hi, fun g' hg' => by rw [List.mem_singleton.mp hg']; rfl⟩
  · simp only [init]
    split_ifs with h
    · exact ⟨by positivity, by exact_mod_cast hc i hi j h, fun g' hg' _ => by rw [List.mem_singleton.mp hg']⟩
    · exact ⟨le_rfl, by exact_mod_cast hp, fun g' hg' h' => absurd (by rwa [List.mem_singleton.mp hg'] at h') h⟩
  · simp [init]
  · simp [init]
  · simp [init]

theorem crtAll_inv {c : Cfg} (hinv : InvSpec c.inv) {s s' : PSt} {hist : List Img} {g : Img} (h : Inv c s hist) (hg : GoodImg c g)
    (hp : g.p ∉ hist.map Img.p) (hs : crtAll c s g = some s') : Inv c s' (hist ++ [g]) := by
  unfold crtAll at hs
  rw [Option.bind_eq_some_iff] at hs
  obtain ⟨E, hE, hs⟩ := hs
  rw [Option.bind_eq_some_iff] at hs
  obtain ⟨C, hC, hs⟩ := hs
  rw [Option.bind_eq_some_iff] at hs
  obtain ⟨t, _, hs⟩ := hs
  rw [Option.map_eq_some_iff] at hs
  obtain ⟨d, _, rfl⟩ := hs
  have hm := h.mod_pos
  have hco : Nat.Coprime s.modulus g.p := by
    rw [h.mod]
    refine Nat.Coprime.symm ((Nat.Prime.coprime_iff_not_dvd hg.prime).mpr fun hd => ?_)
    obtain ⟨q, hq, hdq⟩ := (Prime.dvd_prod_iff (Nat.prime_iff.mp hg.prime)).mp hd
    obtain ⟨g', hg', rfl⟩ := List.mem_map.mp hq
    rw [(Nat.prime_dvd_prime_iff_eq hg.prime (h.good g' hg').prime).mp hdq] at hp
    exact hp hq
  have hEs := crtUpoly_spec hinv (by omega) hg.prime.one_lt hco
    (fun i hi => ⟨(h.crtE i (by omega)).1, (h.crtE i (by omega)).2.1⟩) hE
  have up : ∀ (x y : ℤ) (g' : Img), g' ∈ hist → x ≡ y [ZMOD s.modulus] → x ≡ y [ZMOD g'.p] := fun x y g' hg' hxy =>
    hxy.of_dvd (h.dvd hg')
  refine ⟨by simp, ?_, ?_, by simp [h.mod], fun i hi => ?_, fun i hi j hj => ?_, ?_, fun i hi j hj => ?_⟩
  · intro g' hg'
    rcases List.mem_append.mp hg' with hg' | hg'
    · exact h.good g' hg'
    · rw [List.mem_singleton.mp hg']; exact hg
  · rw [List.map_append, List.map_singleton, List.nodup_append]
    exact ⟨h.nd, by simp, fun a ha b hb => by rw [List.mem_singleton.mp hb]; rintro rfl; exact hp ha⟩
  · obtain ⟨a1, a2, a3, a4⟩ := hEs i (by omega)
    refine ⟨a1, a2, fun g' hg' => ?_⟩
    rcases List.mem_append.mp hg' with hg' | hg'
    · exact (up _ _ g' hg' a3).trans ((h.crtE i hi).2.2 g' hg')
    · rw [List.mem_singleton.mp hg']; exact a4
  · have h2 := mapM_forall₂ _ _ _ hC
    have hil : i < C.length := by rw [← h2.length_eq]; simpa using hi
    have h3 := List.Forall₂.get h2 (i := i) (by simpa using hi) hil
    simp only [List.get_eq_getElem, List.getElem_range] at h3
    obtain ⟨a1, a2, a3, a4⟩ := crtUpoly_spec hinv (by omega) hg.prime.one_lt hco
      (fun j hj => ⟨(h.crtC i hi j hj).1, (h.crtC i hi j hj).2.1⟩) h3 j hj
    simp only [List.getD_eq_getElem _ _ hil]
    refine ⟨a1, a2, fun g' hg' hjg => ?_⟩
    rcases List.mem_append.mp hg' with hg' | hg'
    · exact (up _ _ g' hg' a3).trans ((h.crtC i hi j hj).2.2 g' hg' hjg)
    · rw [List.mem_singleton.mp hg']; exact a4
  · obtain ⟨k, k0, k1, k2, k3⟩ := h.lift
    refine ⟨k, k0, by rw [List.length_append]; omega, fun hl g' hg' => ?_, fun i hi hl => ?_⟩
    · rw [List.take_append_of_le_length k1] at hg'
      exact k2 hl g' hg'
    · obtain ⟨l0, l1, k', gl, l2, l3, l4⟩ := k3 i hi hl
      have hk' : k' ≤ hist.length := by
        have := (List.getElem?_eq_some_iff.mp l3).1
        omega
      refine ⟨l0, l1, k', gl, l2, ?_, fun g' hg' => ?_⟩
      · rw [List.getElem?_append_left (List.getElem?_eq_some_iff.mp l3).1]; exact l3
      · rw [List.take_append_of_le_length hk'] at hg'
        exact l4 g' hg'
  · exact h.zero i hi j fun g' hg' => hj g' (List.mem_append_left _ hg')

theorem checkTD_core {c : Cfg} {s s' : PSt} {g : Img} (h : checkTD c s g = some s') : core s' = core s := by
  unfold checkTD at h
  rw [Option.bind_eq_some_iff] at h
  obtain ⟨s1, h1, h2⟩ := h
  have e1 : core s1 = core s := by
    split at h1
    · rw [Option.map_eq_some_iff] at h1
      obtain ⟨b, _, rfl⟩ := h1
      split <;> rfl
    · cases h1; rfl
  rw [← e1]
  split at h2
  · rw [Option.map_eq_some_iff] at h2
    obtain ⟨b, _, rfl⟩ := h2
    split <;> rfl
  · cases h2; rfl

theorem recTD_core {s s' : PSt} {N : ℤ} (h : recTD s N = some s') : core s' = core s := by
  have hrest : ∀ s s' : PSt, (if s.doneD < 2 ∧ s.doneT ≠ 0 then
        match ok (ratreconwden s.dcrt s.modulus s.gden N N) with
        | none => some { s with gden := 1, doneD := 0 }
        | some nd => (lowest nd.1 (nd.2 * s.gden)).map fun q => { s with dnum := q.1, dden := q.2, doneD := 1 }
      else some s) = some s' → core s' = core s := by
    intro s s' h
    split at h
    · split at h
      · cases h; rfl
      · rw [Option.map_eq_some_iff] at h
        obtain ⟨q, _, rfl⟩ := h
        rfl
    · cases h; rfl
  unfold recTD at h
  split at h
  · cases h; rfl
  · simp only at h
    split at h
    · split at h
      · cases h; rfl
      · rw [Option.bind_eq_some_iff] at h
        obtain ⟨q, _, h⟩ := h
        rw [hrest { s with tnum := q.1, tden := q.2, doneT := 1 } _ h]; rfl
    · exact hrest _ _ h

theorem elimBounds_N (m k : ℕ) (r : Rec) : 0 ≤ (elimBounds m k r).N := by unfold elimBounds; positivity

theorem write_of_lt {l : List ℤ} {f : ℕ → ℤ} {i : ℕ} (h : i < l.length) : l[i]? = some (write l f i) := by
  rw [write, List.getD_eq_getElem _ _ h, List.getElem?_eq_getElem h]

theorem elimPart_inv {c : Cfg} {s s' : PSt} {hist : List Img} {g : Img} {r : Rec} {b : Bool} (h : Inv c s hist) (hg : GoodImg c g)
    (hN : 0 ≤ r.N) (hs : elimPart s g r = some (b, s')) : Inv c s' hist ∧ (b = true → s'.lifted 0 = true) := by
  unfold elimPart at hs
  split at hs
  · rename_i hl
    cases hs
    exact ⟨h, fun _ => hl⟩
  · rename_i hl
    have hm : (1 : ℤ) < s.modulus := by exact_mod_cast h.mod_pos
    cases ha : attempts s.crtE g.elen s.modulus s.gden [elimBounds s.modulus 3, elimBounds s.modulus 16] r with
    | none => rw [ha] at hs; cases hs
    | some x =>
      obtain ⟨o, r'⟩ := x
      rw [ha] at hs
      cases o with
      | none => cases hs; exact ⟨h.congr rfl, by simp⟩
      | some w =>
        obtain ⟨l, L⟩ := w
        simp only [Option.some.injEq, Prod.mk.injEq] at hs
        obtain ⟨rfl, rfl⟩ := hs
        obtain ⟨h1, h2, _, h3⟩ := attempts_sound hm (by
          intro f hf r _
          simp only [List.mem_cons, List.not_mem_nil, or_false] at hf
          rcases hf with rfl | rfl <;> exact elimBounds_N _ _ _) hN ha
        rw [hg.elen] at h2 h3
        refine ⟨⟨h.ne, h.good, h.nd, h.mod, h.crtE, h.crtC, ⟨hist.length, List.length_pos_of_ne_nil h.ne, le_rfl, fun _ g' hg' i hi => ?_,
          fun i hi hli => ?_⟩, h.zero⟩, fun _ => by simp⟩
        · rw [List.take_length] at hg'
          have hd := fun i (hi : i ≤ c.nsols) => (h.dvd hg').trans (h3 i (by omega) _ (write_of_lt (f := s.E) (by omega)))
          have e := fun i (hi : i ≤ c.nsols) => (Int.modEq_iff_dvd.mpr (hd i hi))
          have cE := fun i (hi : i ≤ c.nsols) => (h.crtE i hi).2.2 g' hg'
          have hmon := (h.good g' hg').monic
          show write l s.E i ≡ write l s.E c.nsols * g'.e i [ZMOD g'.p]
          calc write l s.E i ≡ L * (s.gden * s.crtE i) [ZMOD g'.p] := e i hi
            _ ≡ L * (s.gden * g'.e i) [ZMOD g'.p] := (cE i hi).mul_left _ |>.mul_left _
            _ = L * (s.gden * (g'.e c.nsols : ℕ)) * g'.e i := by rw [hmon]; push_cast; ring
            _ ≡ L * (s.gden * s.crtE c.nsols) * g'.e i [ZMOD g'.p] := (((cE c.nsols le_rfl).symm.mul_left _).mul_left _).mul_right _
            _ ≡ write l s.E c.nsols * g'.e i [ZMOD g'.p] := (e c.nsols le_rfl).symm.mul_right _
        · obtain ⟨k, _, _, _, k3⟩ := h.lift
          have : s.lifted (i + 1) = true := by simpa using hli
          exact absurd (k3 i hi this).1 hl

theorem coordLoop_inv {c : Cfg} {g : Img} {hist : List Img} (hlast : hist.getLast? = some g) : ∀ (is : List ℕ) {s s' : PSt} {r : Rec} {b : Bool},
    (∀ i ∈ is, i < c.nc) → Inv c s hist → s.lifted 0 = true → s.gden = s.E c.nsols * c.nsols → 0 ≤ r.N →
    coordLoop c g is s r 1 = some (b, s') →
    Inv c s' hist ∧ s'.lifted 0 = true ∧ (∀ i, s.lifted i = true → s'.lifted i = true) ∧
      (b = true → ∀ i ∈ is, s'.lifted (i + 1) = true)
  | [], s, s', r, b, _, h, h0, _, _, hs => by
    simp only [coordLoop, Option.some.injEq, Prod.mk.injEq] at hs
    obtain ⟨rfl, rfl⟩ := hs
    exact ⟨h, h0, fun _ h => h, by simp⟩
  | i :: is, s, s', r, b, hi, h, h0, hgd, hN, hs => by
    have hm : (1 : ℤ) < s.modulus := by exact_mod_cast h.mod_pos
    have hic := hi i List.mem_cons_self
    have hi' : ∀ i ∈ is, i < c.nc := fun i h => hi i (List.mem_cons_of_mem _ h)
    simp only [coordLoop] at hs
    split at hs
    · rename_i hl
      generalize hr0 : ({ r with maxrec := coordStart c g i } : Rec) = r0 at hs
      have hN0 : 0 ≤ r0.N := by subst hr0; exact hN
      cases ha : attempts (s.crtC i) (g.clen i) s.modulus s.gden [id, coordBounds2 s.modulus c.nc, coordBounds3 s.modulus] r0 with
      | none => rw [ha] at hs; cases hs
      | some x =>
        obtain ⟨o, r'⟩ := x
        rw [ha] at hs
        cases o with
        | none =>
          simp only [Option.some.injEq, Prod.mk.injEq] at hs
          obtain ⟨rfl, rfl⟩ := hs
          exact ⟨h.congr rfl, h0, fun _ h => h, by simp⟩
        | some w =>
          obtain ⟨l, L⟩ := w
          simp only at hs
          obtain ⟨h1, h2, h2', h3⟩ := attempts_sound hm (by
            intro f hf r hr
            simp only [List.mem_cons, List.not_mem_nil, or_false] at hf
            rcases hf with rfl | rfl | rfl
            · exact hr
            · unfold coordBounds2; positivity
            · unfold coordBounds3; positivity) hN0 ha
          rw [if_neg h1.ne', one_mul, Int.sign_eq_one_of_pos h1] at hs
          have hnat : ((Int.natAbs L : ℕ) : ℤ) = L := by rw [Int.natCast_natAbs, abs_of_pos h1]
          rw [hnat] at hs
          simp only [mul_one, ite_self] at hs
          obtain ⟨a1, a2, a3, a4⟩ := coordLoop_inv hlast is hi' (by
            obtain ⟨k, k0, k1, k2, k3⟩ := h.lift
            refine ⟨h.ne, h.good, h.nd, h.mod, h.crtE, h.crtC, ⟨k, k0, k1, fun _ => k2 h0, fun i' hi' hl' => ?_⟩, fun i' hi' j hj => ?_⟩
            · by_cases hii : i' = i
              · subst hii
                refine ⟨by simpa using h0, by simpa using h1, hist.length, g, k1, ?_, fun g' hg' j hj1 hj2 => ?_⟩
                · rw [← List.getLast?_eq_getElem?]; exact hlast
                · rw [List.take_length] at hg'
                  have hg1 := h.good g (List.mem_of_getLast? hlast)
                  have hd := (h.dvd hg').trans (h3 j hj1 _ (write_of_lt (f := s.C i') (by omega)))
                  have e := (Int.modEq_iff_dvd.mpr hd)
                  have cC := (h.crtC i' hic j (lt_of_lt_of_le hj1 (hg1.clen i'))).2.2 g' hg' hj2
                  simp only [Function.update_self]
                  calc write l (s.C i') j ≡ L * (s.gden * s.crtC i' j) [ZMOD g'.p] := e
                    _ ≡ L * (s.gden * g'.c i' j) [ZMOD g'.p] := (cC.mul_left _).mul_left _
                    _ = s.E c.nsols * L * c.nsols * g'.c i' j := by rw [hgd]; ring
              · have : s.lifted (i' + 1) = true := by
                  have h := hl'
                  simp only [Function.update_of_ne (show i' + 1 ≠ i + 1 by omega)] at h
                  exact h
                obtain ⟨l0, l1, k', gl, l2, l3, l4⟩ := k3 i' hi' this
                refine ⟨by simpa using h0, by simpa [hii] using l1, k', gl, l2, l3, ?_⟩
                simpa [hii] using l4
            · by_cases hii : i' = i
              · subst hii
                simp only [Function.update_self]
                have hjl : l.length ≤ j := by rw [h2]; exact hj g (List.mem_of_getLast? hlast)
                rw [write, List.getD_eq_default _ _ hjl]
                exact h.zero i' hi' j hj
              · simp only [Function.update_of_ne hii]
                exact h.zero i' hi' j hj) (by simpa using h0) (by simpa using hgd) h2' hs
          refine ⟨a1, a2, fun i' hl' => a3 i' ?_, fun hb i' hi1 => ?_⟩
          · by_cases hii : i' = i + 1
            · subst hii; simp
            · simpa [hii] using hl'
          · rcases List.mem_cons.mp hi1 with rfl | hi1
            · exact a3 _ (by simp)
            · exact a4 hb i' hi1
    · rename_i hl
      have hl1 : s.lifted (i + 1) = true := by
        by_contra hc
        exact hl ⟨h0, by simpa using hc⟩
      have hc := h.setMaxrec (coordStart c g i)
      obtain ⟨a1, a2, a3, a4⟩ := coordLoop_inv hlast is (s := { s with maxrec := coordStart c g i })
        (r := { r with maxrec := coordStart c g i }) hi' hc h0 hgd hN hs
      refine ⟨a1, a2, fun i' hl' => a3 i' hl', fun hb i' hi1 => ?_⟩
      rcases List.mem_cons.mp hi1 with rfl | hi1
      · exact a3 _ hl1
      · exact a4 hb i' hi1

/-- All polynomials are lifted. -/
def AllLifted (c : Cfg) (s : PSt) : Prop := ∀ i ≤ c.nc, s.lifted i = true

theorem recon_inv {c : Cfg} (hinv : InvSpec c.inv) {doit : Bool} {s s' : PSt} {hist : List Img} {g : Img} {b : Bool} (h : Inv c s hist)
    (hg : GoodImg c g) (hp : g.p ∉ hist.map Img.p) (hs : recon c doit s g = some (b, s')) :
    Inv c s' (hist ++ [g]) ∧ (b = true → AllLifted c s') := by
  unfold recon at hs
  rw [Option.bind_eq_some_iff] at hs
  obtain ⟨s1, h1, hs⟩ := hs
  rw [Option.bind_eq_some_iff] at hs
  obtain ⟨s2, h2, hs⟩ := hs
  have i2 := crtAll_inv hinv (h.congr (checkTD_core h1)) hg hp h2
  split at hs
  · cases hs; exact ⟨i2, by simp⟩
  · simp only at hs
    rw [Option.bind_eq_some_iff] at hs
    obtain ⟨s3, h3, hs⟩ := hs
    have i3 : Inv c s3 (hist ++ [g]) := by
      split at h3
      · exact i2.congr (by rw [recTD_core h3]; rfl)
      · cases h3; exact i2.congr rfl
    split at hs
    · rw [Option.bind_eq_some_iff] at hs
      obtain ⟨⟨b4, s4⟩, h4, hs⟩ := hs
      obtain ⟨i4, l4⟩ := elimPart_inv i3 hg (by simp) h4
      simp only at hs
      split at hs
      · cases hs; exact ⟨i4, by simp⟩
      · rename_i hb
        have hb' : b4 = true := by simpa using hb
        obtain ⟨a1, a2, _, a4⟩ := coordLoop_inv (c := c) (g := g) (hist := hist ++ [g]) (by simp) (List.range c.nc)
          (s := { s4 with gden := s4.E c.nsols * c.nsols }) (by simp) (i4.congr rfl) (l4 hb') rfl (by simp) hs
        refine ⟨a1, fun hbt i hi => ?_⟩
        cases i with
        | zero => exact a2
        | succ i => exact a4 hbt i (List.mem_range.mpr (by omega))
    · cases hs; exact ⟨i3, by simp⟩

theorem check_inv {c : Cfg} {s s' : PSt} {hist : List Img} {g : Img} {b : Bool} (h : Inv c s hist)
    (hs : check c s g = some (b, s')) : Inv c s' hist ∧ (b = false → s' = s) := by
  unfold check at hs
  split at hs
  · cases hs
  · split at hs
    · cases hs; exact ⟨h, fun _ => rfl⟩
    · rename_i i _
      simp only [Option.some.injEq, Prod.mk.injEq] at hs
      obtain ⟨rfl, rfl⟩ := hs
      refine ⟨⟨h.ne, h.good, h.nd, h.mod, h.crtE, h.crtC, ?_, h.zero⟩, by simp⟩
      obtain ⟨k, k0, k1, k2, k3⟩ := h.lift
      refine ⟨k, k0, k1, fun hl => k2 (by simpa using hl), fun i' hi' hl => ?_⟩
      by_cases hii : i' = i
      · subst hii; simp at hl
      · have : s.lifted (i' + 1) = true := by simpa [Function.update_apply, hii] using hl
        simpa using k3 i' hi' this
  · simp only [Option.some.injEq, Prod.mk.injEq] at hs
    obtain ⟨rfl, rfl⟩ := hs
    refine ⟨⟨h.ne, h.good, h.nd, h.mod, h.crtE, h.crtC, ?_, h.zero⟩, by simp⟩
    obtain ⟨k, k0, k1, _⟩ := h.lift
    exact ⟨k, k0, k1, by simp, fun i hi hl => by simp [show i + 1 ≤ c.nc by omega] at hl⟩

/-! ### The loop -/

/-- What holds after the threads `ts`, unless the program has crashed; `hist` are the images given to the reconstruction. -/
structure RunInv (c : Cfg) (g0 : Img) (s : St (Option PSt)) (ts : List (ℕ × Option Img)) (hist : List Img) : Prop where
  used : s.used = (hist.map Img.p).reverse
  head : ∃ l, hist = g0 :: l ∧ (l.map fun g => (g.p, some g)).Sublist ts
  inv : ∀ m, s.m = some m → Inv c m hist
  all : ∀ m, s.m = some m → s.rerun = false → AllLifted c m
  flag : s.rerun = true → s.mcheck = true

/-- The threads deliver usable images with their primes. -/
def GoodThread (c : Cfg) (t : ℕ × Option Img) : Prop := ∀ g, t.2 = some g → t.1 = g.p ∧ GoodImg c g

theorem check_all {c : Cfg} {s s' : PSt} {g : Img} {b : Bool} (hs : check c s g = some (b, s')) (hb : b = false) : s' = s := by
  unfold check at hs
  split at hs
  · cases hs
  · split at hs
    · cases hs; rfl
    · cases hs; cases hb
  · cases hs; cases hb

theorem thread_run {c : Cfg} (hinv : InvSpec c.inv) {g0 : Img} {doit : Bool} {s s' : St (Option PSt)} {ts : List (ℕ × Option Img)}
    {hist : List Img} {t : ℕ × Option Img} (h : RunInv c g0 s ts hist) (ht : GoodThread c t)
    (hnd : (g0.p :: (ts ++ [t]).map Prod.fst).Nodup) (hs : thread (chk c) (clear c) (step c) doit s t = some s') :
    ∃ hist', RunInv c g0 s' (ts ++ [t]) hist' := by
  obtain ⟨q, o⟩ := t
  obtain ⟨l, rfl, hl⟩ := h.head
  have hl' : (l.map fun g => (g.p, some g)).Sublist (ts ++ [(q, o)]) := hl.trans (List.sublist_append_left _ _)
  cases o with
  | none =>
    simp only [thread] at hs
    split at hs
    · cases hs
    · cases hs
      exact ⟨_, h.used, ⟨l, rfl, hl'⟩, h.inv, h.all, h.flag⟩
  | some g =>
    obtain ⟨hq, hg⟩ := ht g rfl
    simp only at hq
    subst hq
    have hp : g.p ∉ (g0 :: l).map Img.p := by
      rw [List.map_append, List.map_singleton, ← List.cons_append, List.nodup_append] at hnd
      intro hm
      have h1 := hnd.2.2 g.p ?_ g.p (by simp)
      · exact h1 rfl
      · rw [List.map_cons, List.mem_cons] at hm
        rcases hm with hm | hm
        · rw [hm]; exact List.mem_cons_self
        · obtain ⟨g', hg', e⟩ := List.mem_map.mp hm
          refine List.mem_cons_of_mem _ ?_
          rw [← e]
          exact List.mem_map_of_mem (f := Prod.fst) (hl.subset (List.mem_map_of_mem (f := fun g : Img => (g.p, some g)) hg'))
    -- the reconstruction on a state that satisfies the invariant
    have key : ∀ (m : Option PSt) (mc : Bool), (∀ x, m = some x → Inv c x (g0 :: l)) → (mc = true) →
        RunInv c g0 { s with rerun := !(step c doit m g).1, mcheck := mc, m := (step c doit m g).2, used := g.p :: s.used,
                             nprimes := s.nprimes + 1 } (ts ++ [(g.p, some g)]) (g0 :: l ++ [g]) := by
      intro m mc hm hmc
      refine ⟨by simp [h.used], ⟨l ++ [g], by simp, ?_⟩, fun x hx => ?_, fun x hx hr => ?_, fun _ => hmc⟩
      · rw [List.map_append]
        exact hl.append (by simp)
      · simp only [step] at hx
        cases hb : m.bind fun s => recon c doit s g with
        | none => rw [hb] at hx; cases hx
        | some r =>
          rw [hb] at hx
          simp only [Option.some.injEq] at hx
          subst hx
          rw [Option.bind_eq_some_iff] at hb
          obtain ⟨y, rfl, hy⟩ := hb
          exact (recon_inv hinv (hm y rfl) hg hp hy).1
      · simp only [step] at hx hr
        cases hb : m.bind fun s => recon c doit s g with
        | none => rw [hb] at hx; cases hx
        | some r =>
          rw [hb] at hx hr
          simp only [Option.some.injEq] at hx
          subst hx
          rw [Option.bind_eq_some_iff] at hb
          obtain ⟨y, rfl, hy⟩ := hb
          exact (recon_inv hinv (hm y rfl) hg hp hy).2 (by simpa using hr)
    simp only [thread] at hs
    cases hr : s.rerun with
    | true =>
      have hm := h.flag hr
      simp only [hr, hm, if_true, if_false, Bool.true_eq_false, false_and] at hs
      cases hs
      exact ⟨_, key s.m true h.inv rfl⟩
    | false =>
      simp only [hr, if_true, true_and] at hs
      cases hc : chk c s.m g with
      | true =>
        simp only [hc, if_true] at hs
        cases hs
        refine ⟨_, key (clear c s.m g) true (fun x hx => ?_) rfl⟩
        unfold clear at hx
        rw [Option.bind_eq_some_iff] at hx
        obtain ⟨y, hy, hx⟩ := hx
        rw [Option.map_eq_some_iff] at hx
        obtain ⟨⟨b, z⟩, hz, rfl⟩ := hx
        exact (check_inv (h.inv y hy) hz).1
      | false =>
        simp only [hc, Bool.false_eq_true, if_false] at hs
        cases hs
        exact ⟨_, h.used, ⟨l, rfl, hl'⟩, h.inv, fun m hm _ => h.all m hm hr, by simp⟩

theorem round_run {c : Cfg} (hinv : InvSpec c.inv) {g0 : Img} {doit : Bool} : ∀ (l : List (ℕ × Option Img)) {s s' : St (Option PSt)}
    {ts : List (ℕ × Option Img)} {hist : List Img}, RunInv c g0 s ts hist → (∀ t ∈ l, GoodThread c t) →
    (g0.p :: (ts ++ l).map Prod.fst).Nodup → round (chk c) (clear c) (step c) doit s l = some s' →
    ∃ hist', RunInv c g0 s' (ts ++ l) hist'
  | [], s, s', ts, hist, h, _, _, hs => by
    cases hs; exact ⟨hist, by simpa using h⟩
  | t :: l, s, s', ts, hist, h, hg, hnd, hs => by
    rw [round] at hs
    cases ht : thread (chk c) (clear c) (step c) doit s t with
    | none => rw [ht] at hs; cases hs
    | some s1 =>
      rw [ht] at hs
      have e : ts ++ t :: l = ts ++ [t] ++ l := by simp
      rw [e] at hnd ⊢
      obtain ⟨hist1, h1⟩ := thread_run hinv h (hg t List.mem_cons_self) (hnd.sublist (by
        rw [List.map_append (l₁ := ts ++ [t]), ← List.cons_append]
        exact List.sublist_append_left _ _)) ht
      exact round_run hinv l h1 (fun t ht => hg t (List.mem_cons_of_mem _ ht)) hnd hs

theorem lift_run {c : Cfg} (hinv : InvSpec c.inv) {g0 : Img} : ∀ (rs : List (Bool × List (ℕ × Option Img))) {s s' : St (Option PSt)}
    {ts : List (ℕ × Option Img)} {hist : List Img}, RunInv c g0 s ts hist → (∀ r ∈ rs, ∀ t ∈ r.2, GoodThread c t) →
    (g0.p :: (ts ++ rs.flatMap Prod.snd).map Prod.fst).Nodup → lift (chk c) (clear c) (step c) s rs = .done s' →
    ∃ n hist', RunInv c g0 s' (ts ++ (rs.take n).flatMap Prod.snd) hist' ∧ s'.rerun = false
  | [], s, s', ts, hist, h, _, _, hs => by
    rw [lift] at hs
    split at hs
    · cases hs
    · rename_i hn
      cases hs
      push Not at hn
      exact ⟨0, hist, by simpa using h, by simpa using hn.1⟩
  | r :: l, s, s', ts, hist, h, hg, hnd, hs => by
    rw [lift] at hs
    split at hs
    · cases hr : round (chk c) (clear c) (step c) r.1 s r.2 with
      | none => rw [hr] at hs; cases hs
      | some s1 =>
        rw [hr] at hs
        have e : ts ++ (r :: l).flatMap Prod.snd = ts ++ r.2 ++ l.flatMap Prod.snd := by simp
        rw [e] at hnd
        obtain ⟨hist1, h1⟩ := round_run hinv r.2 h (hg r List.mem_cons_self) (hnd.sublist (by
          rw [List.map_append (l₁ := ts ++ r.2), ← List.cons_append]
          exact List.sublist_append_left _ _)) hr
        obtain ⟨n, hist', h2, h3⟩ := lift_run hinv l h1 (fun r hr => hg r (List.mem_cons_of_mem _ hr)) hnd hs
        exact ⟨n + 1, hist', by simpa using h2, h3⟩
    · rename_i hn
      cases hs
      push Not at hn
      exact ⟨0, hist, by simpa using h, by simpa using hn.1⟩

end Verif.ParamLift
