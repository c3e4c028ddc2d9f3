import Verif.ElimField
import Verif.Content
import Verif.Trace
import Verif.LiftGB
import Verif.PrintQq
import Verif.Primes
import Verif.Spec.ProblemQ
import Verif.Props.Content
import Verif.Props.Import

/-! The path of `msolve -g 2` over the rationals from the input file to the printed basis: main.c 343-483, msolve.c 4708-4738,
`print_msolve_gbtrace_qq` (lifting-gb.c 1687-1755), `groebner_qq` (1582-1685), `core_groebner_qq` (1144-1501),
`gb_modular_trace_learning` (560-714), `gb_modular_trace_application` (716-796).  The parts are the models of the other modules.

The names are those of `e` variables to be eliminated and of `n` further variables. -/

namespace Verif.EndToEndQq

open Verif.Orders Verif.Import Verif.Normalize Verif.Parse Verif.F4 Verif.Spec Verif.EndToEnd Verif.LiftStore

/-! ### Import -/

/-- The product of the denominators, io.c 380-386. -/
def prodDen (f : List ((ℤ × ℤ) × List ℤ)) : ℤ := f.foldl (fun a t => a * t.1.2) 1

/-- One term, io.c 393-396 and 308-311; `mpz_divexact` is the division. -/
def importTermQ (nv nev : ℕ) (D : ℤ) (t : (ℤ × ℤ) × List ℤ) : ℤ × (ℕ → ℕ) :=
  (D / t.1.2 * t.1.1, setEv nv nev (fun i => (t.2.getD i 0).toNat) fun _ => 0)

/-- One generator, io.c 374-403: the terms with common denominator, `sort_terms_qq`; `tmp` is the contents of the buffer. -/
def ImportPolyQ (nv nev : ℕ) (f : List ((ℤ × ℤ) × List ℤ)) (g : List ((Fin nv → ℕ) × ℤ)) : Prop :=
  ∃ σ cf tmp, SortPerm nv nev ((f.map (importTermQ nv nev (prodDen f))).map fun t => (0, t.2)) σ ∧
    sortTermsQ f.length (fun i => (f.map (importTermQ nv nev (prodDen f))).getD i (0, fun _ => 0)) σ tmp = some cf ∧
    g = (List.range f.length).map fun i => (monOf nv nev (cf i).2, (cf i).1)

/-- A generator is invalid if a numerator or a denominator is zero, io.c 724-735. -/
def invalidQ (f : List ((ℤ × ℤ) × List ℤ)) : Bool := invalid (f.flatMap fun t => [t.1.1, t.1.2])

/-- `remove_content_of_initial_basis` (engine.c 105-107): coefficient rows with `PRELOOP` equal to the length modulo four
(io.c 291-306). -/
def primitive {m : ℕ} (g : List (List ((Fin m → ℕ) × ℤ))) : Option (List (List ((Fin m → ℕ) × ℤ))) :=
  (Content.removeContent (g.map fun f => (f.length % 4, f.map Prod.snd))).map fun out =>
    List.zipWith (fun f cs => (f.map Prod.fst).zip cs) g out

/-! ### The computation modulo a prime -/

/-- `is_lucky_prime_ui`, modular.h 41-60, returns one if the prime divides a coefficient. -/
def isBad {m : ℕ} (p : ℕ) (Z : List (List ((Fin m → ℕ) × ℤ))) : Bool := Z.any fun f => f.any fun t => t.2 % (p : ℤ) == 0

/-- `copy_basis_mod_p` (basis.c 377-459) and `normalize_initial_basis` (f4.c 372). -/
def modGens {m : ℕ} (p : ℕ) (Z : List (List ((Fin m → ℕ) × ℤ))) : Option (List (Poly m)) :=
  Z.mapM fun f => (normInit (2 * ffBits p) (ffBits p) p (f.map fun t => (t.2 % (p : ℤ)).toNat)).map fun cs =>
    (f.map Prod.fst).zip cs

/-- The first computation, modulo `p` (lifting-gb.c 612-628, f4.c 342-408, 659-661).  In the first call of `core_groebner_qq` the
trace is recorded; in a call after a restart `trace_level` is still `APPLY_TRACER`, and the trace `t` of the first call is applied. -/
def First (e : ℕ) {m : ℕ} (Z : List (List ((Fin m → ℕ) × ℤ))) (st : Option (Tr m)) (p : ℕ) (tr : Tr m) (G : List (Poly m)) : Prop :=
  ∃ (C : F4.Cfg m) (F : List (Poly m)), modGens p Z = some F ∧ C.ord = ordKind e ∧ C.p = p ∧ Sorts C ∧
    match st with
    | none => Learn C F tr G
    | some t => tr = t ∧ Apply C F t (some G)

/-- A trace applied modulo `p` (lifting-gb.c 738-754). -/
def Applied (e : ℕ) {m : ℕ} (Z : List (List ((Fin m → ℕ) × ℤ))) (t : Tr m) (p : ℕ) (r : Option (List (Poly m))) : Prop :=
  ∃ (C : F4.Cfg m) (F : List (Poly m)), modGens p Z = some F ∧ C.ord = ordKind e ∧ C.p = p ∧ Sorts C ∧ Apply C F t r

/-! ### The primes -/

/-- lifting-gb.c 1181-1185: a first prime. -/
def FirstPrime {m : ℕ} (Z : List (List ((Fin m → ℕ) × ℤ))) (p : ℕ) : Prop :=
  ∃ r, 2 ^ 30 ≤ r ∧ r ≤ 1303905301 ∧ Primes.nextPrime r = some p ∧ isBad p Z = false

/-- lifting-gb.c 1320-1323 and 1328-1331. -/
def stepPrime (q : ℕ) : Option ℕ :=
  match Primes.nextPrime q with
  | none => none
  | some p => if p ≥ 1303905299 then Primes.nextPrime (2 ^ 30) else some p

/-- lifting-gb.c 1320-1334: the prime `p` used after `q`. -/
inductive NextGood {m : ℕ} (Z : List (List ((Fin m → ℕ) × ℤ))) (p0 : ℕ) : ℕ → ℕ → Prop
  | here {q p : ℕ} : stepPrime q = some p → isBad p Z = false → p ≠ p0 → NextGood Z p0 q p
  | skip {q q' p : ℕ} : stepPrime q = some q' → isBad q' Z = true ∨ q' = p0 → NextGood Z p0 q' p → NextGood Z p0 q p

/-- The primes after the first one and what the application of the trace delivers; the truth values tell when timings double the
number of rounds between reconstructions. -/
inductive Later (e : ℕ) {m : ℕ} (Z : List (List ((Fin m → ℕ) × ℤ))) (t : Tr m) (p0 : ℕ) :
    ℕ → List ((ℕ × Option (List (Poly m))) × Bool) → Prop
  | nil (q : ℕ) : Later e Z t p0 q []
  | cons {q p : ℕ} {r : Option (List (Poly m))} {slow : Bool} {gs : List ((ℕ × Option (List (Poly m))) × Bool)} :
      NextGood Z p0 q p → Applied e Z t p r → Later e Z t p0 p gs → Later e Z t p0 q (((p, r), slow) :: gs)

/-! ### The loop -/

/-- What a computation does: it delivers a result, or stops with an error message, or reads outside of an array or a NULL pointer. -/
inductive Res (α : Type) where
  | printed (out : α)
  | stopped
  | undefined
  deriving DecidableEq

def Res.map {α β : Type} (f : α → β) : Res α → Res β
  | .printed a => .printed (f a)
  | .stopped => .stopped
  | .undefined => .undefined

/-- `gb_modpoly_t`, data_stat.h, as far as it is printed or exported: `ldm`, `mb`, `ld` and `modpolys`. -/
structure Lifted (n : ℕ) where
  ldm : List (Fin n → ℕ)
  mb : List (Fin n → ℕ)
  npol : ℕ
  polys : ℕ → LiftGB.MPoly

/-- The leading monomials in the variables that are not eliminated, lifting-gb.c 631-672: the elements before the first one with
a variable of the elimination block. -/
def kept {n : ℕ} (e : ℕ) (G : List (Poly (e + n))) : List (Poly (e + n)) := G.take (numGb e (G.map F4.lead))
def keptLeads {n : ℕ} (e : ℕ) (G : List (Poly (e + n))) : List (Fin n → ℕ) :=
  (kept e G).map fun f i => F4.lead f (Fin.natAdd e i)

/-- The comments before the basis, lifting-gb.c 1707-1740. -/
def headerQq (names : List (List Char)) (e len : ℕ) : List Char :=
  "#Reduced Groebner basis data\n".toList ++ "#---\n".toList ++ "#field characteristic: 0\n".toList ++
  ("#variable order:       ".toList ++ List.intercalate [',', ' '] (names.drop e) ++ ['\n']) ++
  "#monomial order:       graded reverse lexicographical\n".toList ++
  (if len = 1 then "#length of basis:      1 element\n".toList
   else "#length of basis:      ".toList ++ Nat.toDigits 10 len ++ " elements sorted by increasing leading monomials\n".toList) ++
  "#---\n".toList

/-- `core_groebner_qq` with `print_gb = 2`, beginning with the trace `st` of an earlier call; `us` are the primes modulo which F4 runs.
`unit`: the basis is one, lifting-gb.c 690-704, 1231-1238.  `stop`: the trace is rejected modulo the first prime, 622-628.
`restart`: 1413-1424.  `abort`: no room for a prime, 503-506.  `undefined`: no element is left after the elimination (hilbert.c
1310ff).  The lists of primes in `done`, `restart` and `abort` may be longer than what the loop reads. -/
inductive Core (E : LiftGB.Ext) (nt : ℕ) (e n : ℕ) (Z : List (List ((Fin (e + n) → ℕ) × ℤ))) :
    Option (Tr (e + n)) → List ℕ → Res (Lifted n) → Prop
  | unit {st tr p G mb} : FirstPrime Z p → First e Z st p tr G → G.length = 1 → F4.lead (G.getD 0 []) = 0 →
      enlarged (keptLeads e G) = .done mb →
      Core E nt e n Z st [p] (.printed ⟨keptLeads e G, mb, (keptLeads e G).length,
        fun k => ⟨lensOf (keptLeads e G) mb k, fun _ _ => 0, fun _ => 0, fun _ => 0, fun _ => 0, 1⟩⟩)
  | undefined {st tr p G} : FirstPrime Z p → First e Z st p tr G → enlarged (keptLeads e G) = .overflow →
      Core E nt e n Z st [p] .undefined
  | stop {t p} : FirstPrime Z p → Applied e Z t p none → Core E nt e n Z (some t) [p] .stopped
  | done {st tr p G mb cs s0 gs es s} : FirstPrime Z p → First e Z st p tr G → ¬ (G.length = 1 ∧ F4.lead (G.getD 0 []) = 0) →
      enlarged (keptLeads e G) = .done mb → storeAll e mb (lensOf (keptLeads e G) mb) 0 (kept e G) = some cs →
      LiftGB.initSt (keptLeads e G).length (lensOf (keptLeads e G) mb) p (fun k l => cs.getD k (fun _ => 0) l) = some s0 →
      Later e Z tr p p gs → eventsOf e (keptLeads e G) mb (keepFree e) gs = some es → LiftGB.run E nt es s0 0 0 = .done s →
      Core E nt e n Z st (p :: gs.map fun g => g.1.1) (.printed ⟨keptLeads e G, mb, s.npol, s.polys⟩)
  | abort {st tr p G mb cs s0 gs es} : FirstPrime Z p → First e Z st p tr G → ¬ (G.length = 1 ∧ F4.lead (G.getD 0 []) = 0) →
      enlarged (keptLeads e G) = .done mb → storeAll e mb (lensOf (keptLeads e G) mb) 0 (kept e G) = some cs →
      LiftGB.initSt (keptLeads e G).length (lensOf (keptLeads e G) mb) p (fun k l => cs.getD k (fun _ => 0) l) = some s0 →
      Later e Z tr p p gs → eventsOf e (keptLeads e G) mb (keepFree e) gs = some es → LiftGB.run E nt es s0 0 0 = .abort →
      Core E nt e n Z st (p :: gs.map fun g => g.1.1) .stopped
  | restart {st tr p G mb cs s0 gs es s us r} : FirstPrime Z p → First e Z st p tr G →
      ¬ (G.length = 1 ∧ F4.lead (G.getD 0 []) = 0) →
      enlarged (keptLeads e G) = .done mb → storeAll e mb (lensOf (keptLeads e G) mb) 0 (kept e G) = some cs →
      LiftGB.initSt (keptLeads e G).length (lensOf (keptLeads e G) mb) p (fun k l => cs.getD k (fun _ => 0) l) = some s0 →
      Later e Z tr p p gs → eventsOf e (keptLeads e G) mb (keepFree e) gs = some es → LiftGB.run E nt es s0 0 0 = .restart s →
      Core E nt e n Z (some tr) us r →
      Core E nt e n Z st (p :: (gs.map fun g => g.1.1) ++ us) r

/-- The printed basis, lifting-gb.c 1687-1740. -/
def printLifted {n : ℕ} (names : List (List Char)) (e : ℕ) (b : Lifted n) : List Char :=
  headerQq names e b.npol ++ PrintQq.displayBasis names e b.ldm b.mb b.npol b.polys

/-- The imported and sorted generators with integer coefficients: `initialize_gba_input_data`, engine.c 52-112 (of the sort only
that it is a permutation). -/
def Input (e n : ℕ) (im : List (List ((ℤ × ℤ) × List ℤ))) (Z : List (List ((Fin (e + n) → ℕ) × ℤ))) : Prop :=
  ∃ g0 g, List.Forall₂ (ImportPolyQ (e + n) e) im g0 ∧ g.Perm g0 ∧ primitive g = some Z

/-- `msolve -g 2` with `-e e` on an input file over the rationals: the generators are read (C58), the valid ones imported (C15),
the basis is computed (C66), lifted (C62-C64) and printed (C70).  Without valid generator the program stops
(engine.c 64-66, lifting-gb.c 1644-1647; NULL would be returned if this test came after the one for -1, C15).  As in `Verif.EndToEnd`, monomials are vectors of natural numbers during
F4; FLINT is `E`; a step without result is no execution. -/
def Run (E : LiftGB.Ext) (nt e n : ℕ) (input : List Char) (us : List ℕ) (r : Res (List Char)) : Prop :=
  ∃ (names : List (List Char)) (ps : List (List ((ℤ × ℤ) × List ℤ))), readFile input = some ⟨names, 0, .qq ps⟩ ∧
    names.length = e + n ∧ 0 < n ∧
    match importGens invalidQ 0 ps with
    | .stop => r = .stopped ∧ us = []
    | .allInvalid => r = .undefined ∧ us = []
    | .ok im _ => ∃ Z b, Input e n im Z ∧ Core E nt e n Z none us b ∧ r = b.map (printLifted names e)

/-! ### Import of a generator -/

variable {n : ℕ}

/-- The terms of a generator with a common denominator. -/
def intTerms (n : ℕ) (ts : List Text.Mon) : List ((Fin n → ℕ) × ℤ) :=
  ts.map fun t => (t.vec n, (ts.map Text.Mon.denom).prod / t.denom * t.numer)

theorem prodDen_eq (n : ℕ) (ts : List Text.Mon) : prodDen (qqPoly n ts) = (ts.map Text.Mon.denom).prod := by
  have key : ∀ (ts : List Text.Mon) (a : ℤ), (qqPoly n ts).foldl (fun a t => a * t.1.2) a = a * (ts.map Text.Mon.denom).prod := by
    intro ts
    induction ts with
    | nil => intro a; simp [qqPoly]
    | cons t ts ih =>
      intro a
      have := ih (a * t.denom)
      simp only [qqPoly, List.map_cons, List.foldl_cons, List.prod_cons] at this ⊢
      rw [this, mul_assoc]
  unfold prodDen
  rw [key, one_mul]

theorem import_termsQ (n nev : ℕ) (ts : List Text.Mon) (D : ℤ) :
    (qqPoly n ts).map (importTermQ n nev D) = ts.map fun t => (D / t.denom * t.numer, setEv n nev (ext (t.vec n)) fun _ => 0) := by
  unfold qqPoly
  rw [List.map_map]
  apply List.map_congr_left
  intro t _
  have : (fun i => (((expoRow n t).getD i 0)).toNat) = ext (t.vec n) := by
    funext i
    unfold ext
    split_ifs with h
    · simp [expoRow, List.getD_eq_getElem?_getD, h, Text.Mon.vec]
    · simp [expoRow, List.getD_eq_getElem?_getD, h]
  simp only [Function.comp_apply, importTermQ, this]

/-- The terms in the order of the basis. -/
theorem sorted_termsQ {nev : ℕ} {ts : List Text.Mon} (c : Text.Mon → ℤ) {σ : ℕ → ℕ} {cf : ℕ → ℤ × (ℕ → ℕ)} {tmp : ℤ × (ℕ → ℕ)}
    (hσ : SortPerm n nev (ts.map fun t => (0, setEv n nev (ext (t.vec n)) fun _ => 0)) σ)
    (hcf : sortTermsQ ts.length
      (fun i => (ts.map fun t => (c t, setEv n nev (ext (t.vec n)) fun _ => 0)).getD i (0, fun _ => 0)) σ tmp = some cf) :
    ∃ ts' : List Text.Mon, ts'.Perm ts ∧
      (List.range ts.length).map cf = ts'.map (fun t => (c t, setEv n nev (ext (t.vec n)) fun _ => 0)) ∧
      ts'.Pairwise fun a b => gensCmp n nev (setEv n nev (ext (a.vec n)) fun _ => 0) (setEv n nev (ext (b.vec n)) fun _ => 0) ≤ 0 := by
  obtain ⟨h1, h2, h3⟩ := hσ
  simp only [List.length_map] at h1 h2 h3
  rw [sortTermsQ_eq] at hcf
  obtain ⟨cf', e, hs⟩ := sortTerms_spec _ _ σ h1 h2
  rw [hcf] at e
  obtain rfl := Option.some.inj e
  have hget : ∀ i < ts.length, (ts.map fun t => (c t, setEv n nev (ext (t.vec n)) fun _ => 0)).getD i (0, fun _ => 0) =
      (fun t : Text.Mon => (c t, setEv n nev (ext (t.vec n)) fun _ => 0)) (ts.getD i {}) := by
    intro i hi
    simp [List.getD_eq_getElem?_getD, hi]
  have hget' : ∀ i < ts.length, (ts.map fun t => ((0 : ℕ), setEv n nev (ext (t.vec n)) fun _ => 0)).getD i (0, fun _ => 0) =
      (fun t : Text.Mon => (0, setEv n nev (ext (t.vec n)) fun _ => 0)) (ts.getD i {}) := by
    intro i hi
    simp [List.getD_eq_getElem?_getD, hi]
  refine ⟨((List.range ts.length).map σ).map fun i => ts.getD i {}, ?_, ?_, ?_⟩
  · have hp : ((List.range ts.length).map σ).Perm (List.range ts.length) := by
      refine (List.subperm_of_subset ?_ ?_).perm_of_length_le (by simp)
      · exact List.Nodup.map_on (fun a ha b hb => h2 a (List.mem_range.mp ha) b (List.mem_range.mp hb)) List.nodup_range
      · intro x hx
        obtain ⟨m, hm, rfl⟩ := List.mem_map.mp hx
        exact List.mem_range.mpr (h1 m (List.mem_range.mp hm))
    have e : (List.range ts.length).map (fun i => ts.getD i {}) = ts := by
      apply List.ext_getElem
      · simp
      · intro i hi hi'
        simp [List.getD_eq_getElem?_getD, hi']
    have := hp.map fun i => ts.getD i ({} : Text.Mon)
    rwa [e] at this
  · rw [List.map_map, List.map_map]
    apply List.map_congr_left
    intro i hi
    have hi := List.mem_range.mp hi
    rw [hs i hi, hget _ (h1 i hi)]
    rfl
  · rw [List.map_map, List.pairwise_map]
    refine List.Pairwise.imp_of_mem ?_ (List.pairwise_lt_range (n := ts.length))
    intro i j hi hj hij
    have hi := List.mem_range.mp hi
    have hj := List.mem_range.mp hj
    have := h3 i j hij hj
    rw [hget' _ (h1 i hi), hget' _ (h1 j hj)] at this
    exact this

open Verif.Spec.Text (ExpandedQ)

/-- What a generator becomes. -/
theorem importPolyQ_spec {nev : ℕ} (hnev : nev < n) {ts : List Text.Mon} (hE : ExpandedQ n ts) {g : List ((Fin n → ℕ) × ℤ)}
    (h : ImportPolyQ n nev (qqPoly n ts) g) :
    g.Perm (intTerms n ts) ∧ (g.map Prod.fst).Pairwise fun a b => (ordKind nev).lt b a := by
  have hlen : (qqPoly n ts).length = ts.length := by simp [qqPoly]
  obtain ⟨σ, cf, tmp, hσ, hcf, rfl⟩ := h
  rw [import_termsQ] at hσ hcf
  rw [prodDen_eq] at hcf
  rw [hlen] at hcf ⊢
  rw [List.map_map] at hσ
  obtain ⟨ts', hperm, hmap, hpw⟩ := sorted_termsQ _ hσ hcf
  have hdeg : ∀ t ∈ ts', ∑ i, t.vec n i < 65536 := fun t ht => hE.deg t (hperm.mem_iff.mp ht)
  have hc : (List.range ts.length).map (fun i => (monOf n nev (cf i).2, (cf i).1)) =
      ts'.map fun t => (t.vec n, (ts.map Text.Mon.denom).prod / t.denom * t.numer) := by
    have := congrArg (List.map fun x => (monOf n nev x.2, x.1)) hmap
    simp only [List.map_map, Function.comp_def] at this
    rw [this]
    apply List.map_congr_left
    intro t ht
    rw [monOf_setEv hnev _ (hdeg t ht) _]
  rw [hc]
  constructor
  · exact hperm.map _
  · rw [List.map_map, List.pairwise_map]
    have hnd : (ts'.map (Text.Mon.vec n)).Nodup := (hperm.map _).nodup_iff.mpr hE.distinct
    rw [List.Nodup, List.pairwise_map] at hnd
    refine List.Pairwise.imp_of_mem ?_ (hpw.and hnd)
    rintro a b ha hb ⟨h1, h2⟩
    obtain ⟨k1, k2⟩ := gensCmp_spec hnev _ _ (hdeg a ha) (hdeg b hb) (fun _ => 0) fun _ => 0
    exact k1.mp (lt_of_le_of_ne h1 fun h => h2 (k2.mp h))

/-- The terms can be sorted. -/
theorem importPolyQ_exists {nev : ℕ} (hnev : nev < n) {ts : List Text.Mon} (hE : ExpandedQ n ts) :
    ∃ g, ImportPolyQ n nev (qqPoly n ts) g := by
  have hlen : (qqPoly n ts).length = ts.length := by simp [qqPoly]
  have hadm := (ordKind nev).adm (n := n)
  let v : ℕ → Fin n → ℕ := fun i => (ts.getD i {}).vec n
  let R : ℕ → ℕ → Prop := fun i j => ¬ (ordKind nev).lt (v i) (v j)
  have htot : Std.Total R := ⟨by
    intro a b
    by_contra hno
    simp only [R] at hno
    push Not at hno
    exact hadm.irrefl _ (hadm.trans _ _ _ hno.1 hno.2)⟩
  have htr : IsTrans ℕ R := ⟨by
    intro a b c hab hbc hac
    rcases hadm.total (v a) (v b) with h | h | h
    · exact hab h
    · exact hbc (h ▸ hac)
    · exact hbc (hadm.trans _ _ _ h hac)⟩
  let l := @List.insertionSort _ R (Classical.decRel _) (List.range ts.length)
  have hl : l.Perm (List.range ts.length) := @List.perm_insertionSort _ R (Classical.decRel _) _
  have hlp : l.Pairwise R := @List.pairwise_insertionSort _ R (Classical.decRel _) htot htr _
  have hll : l.length = ts.length := by rw [hl.length_eq, List.length_range]
  have hgl : ∀ m (hm : m < ts.length), l.getD m 0 = l[m]'(by omega) := by
    intro m hm
    simp [List.getD_eq_getElem?_getD, hll, hm]
  have hlt : ∀ m < ts.length, l.getD m 0 < ts.length := by
    intro m hm
    rw [hgl m hm]
    exact List.mem_range.mp (hl.mem_iff.mp (List.getElem_mem _))
  have hσ : SortPerm n nev (ts.map fun t => (0, setEv n nev (ext (t.vec n)) fun _ => 0)) fun m => l.getD m 0 := by
    refine ⟨?_, ?_, ?_⟩
    · simpa using hlt
    · simp only [List.length_map]
      intro a ha b hb hab
      rw [hgl a ha, hgl b hb] at hab
      exact (List.Nodup.getElem_inj_iff (hl.nodup_iff.mpr List.nodup_range)).mp hab
    · simp only [List.length_map]
      intro i j hij hj
      have hi := hij.trans hj
      have hget : ∀ i < ts.length, (ts.map fun t => ((0 : ℕ), setEv n nev (ext (t.vec n)) fun _ => 0)).getD i (0, fun _ => 0) =
          (0, setEv n nev (ext (v i)) fun _ => 0) := by
        intro i hi
        simp [List.getD_eq_getElem?_getD, hi, v]
      have hvd : ∀ i < ts.length, ∑ k, v i k < 65536 := by
        intro i hi
        apply hE.deg
        rw [List.getD_eq_getElem _ _ hi]
        exact List.getElem_mem _
      rw [hget _ (hlt i hi), hget _ (hlt j hj)]
      obtain ⟨k1, k2⟩ := gensCmp_spec hnev _ _ (hvd _ (hlt i hi)) (hvd _ (hlt j hj)) (fun _ => 0) fun _ => 0
      have hR : R (l.getD i 0) (l.getD j 0) := by
        rw [hgl i hi, hgl j hj]
        exact List.pairwise_iff_getElem.mp hlp i j _ _ hij
      rcases hadm.total (v (l.getD i 0)) (v (l.getD j 0)) with h | h | h
      · exact absurd h hR
      · exact (k2.mpr h).le
      · exact (k1.mpr h).le
  obtain ⟨cf, hcf, -⟩ := sortTerms_spec ts.length
    (fun i => ((qqPoly n ts).map (importTermQ n nev (prodDen (qqPoly n ts)))).getD i (0, fun _ => 0)) (fun m => l.getD m 0)
    (by simpa using hσ.lt) (by simpa using hσ.inj)
  refine ⟨_, fun m => l.getD m 0, cf, (0, fun _ => 0), ?_, ?_, rfl⟩
  · rw [import_termsQ, List.map_map]
    exact hσ
  · rw [sortTermsQ_eq, hlen]
    exact hcf

/-! ### Content -/

/-- How an integer generator belongs to a polynomial in the file. -/
structure GenOf (nev : ℕ) (ts : List Text.Mon) (z : List ((Fin n → ℕ) × ℤ)) : Prop where
  sorted : (z.map Prod.fst).Pairwise fun a b => (ordKind nev).lt b a
  mult : ∃ u : ℤ, u ≠ 0 ∧ (z.map fun t => (t.1, u * t.2)).Perm (intTerms n ts)
  prim : ∀ d : ℤ, (∀ t ∈ z, d ∣ t.2) → d ∣ 1
  pos : ∃ t z', z = t :: z' ∧ 0 < t.2

theorem intTerms_ne_zero {ts : List Text.Mon} (hE : ExpandedQ n ts) : ∀ t ∈ intTerms n ts, t.2 ≠ 0 := by
  intro t ht
  obtain ⟨u, hu, rfl⟩ := List.mem_map.mp ht
  refine mul_ne_zero ?_ (hE.numer u hu)
  have h1 : u.denom ∣ (ts.map Text.Mon.denom).prod := List.dvd_prod (List.mem_map_of_mem hu)
  have h2 : (ts.map Text.Mon.denom).prod ≠ 0 := by
    rw [Ne, List.prod_eq_zero_iff]
    intro h
    obtain ⟨v, hv, h⟩ := List.mem_map.mp h
    exact hE.denom v hv h
  intro h
  exact h2 (by rw [← Int.ediv_mul_cancel h1, h, zero_mul])

theorem zip_mul {α : Type*} (u : ℤ) : ∀ (f : List (α × ℤ)) (s : List ℤ), f.map Prod.snd = s.map (fun x => u * x) →
    (((f.map Prod.fst).zip s).map fun t => (t.1, u * t.2)) = f
  | [], s, _ => by simp
  | t :: f, [], h => by simp at h
  | t :: f, x :: s, h => by
    simp only [List.map_cons, List.cons.injEq] at h
    simp only [List.map_cons, List.zip_cons_cons, zip_mul u f s h.2]
    rw [← h.1]

theorem genOf_one {nev : ℕ} (hnev : nev < n) {ts : List Text.Mon} (hE : ExpandedQ n ts) {f : List ((Fin n → ℕ) × ℤ)}
    (h : ImportPolyQ n nev (qqPoly n ts) f) (hne : f ≠ []) {s : List ℤ} {u b : ℤ} {m : List ℤ} (hs : s = b :: m) (hb : 0 < b)
    (hp : ∀ d : ℤ, (∀ x ∈ s, d ∣ x) → d ∣ 1) (hu : f.map Prod.snd = s.map (fun x => u * x)) :
    GenOf nev ts ((f.map Prod.fst).zip s) := by
  obtain ⟨h1, h2⟩ := importPolyQ_spec hnev hE h
  have hl : (f.map Prod.fst).length = s.length := by simpa using congrArg List.length hu
  refine ⟨by rw [List.map_fst_zip hl.le]; exact h2, ⟨u, ?_, by rw [zip_mul u f s hu]; exact h1⟩, ?_, ?_⟩
  · rintro rfl
    obtain ⟨t, f, rfl⟩ := List.exists_cons_of_ne_nil hne
    subst hs
    simp only [List.map_cons, List.cons.injEq, zero_mul] at hu
    exact intTerms_ne_zero hE t (h1.mem_iff.mp List.mem_cons_self) hu.1
  · intro d hd
    apply hp d
    intro x hx
    rw [← List.map_snd_zip hl.ge] at hx
    obtain ⟨t, ht, rfl⟩ := List.mem_map.mp hx
    exact hd t ht
  · obtain ⟨t, f, rfl⟩ := List.exists_cons_of_ne_nil hne
    subst hs
    exact ⟨_, _, rfl, hb⟩

theorem primitive_spec {nev : ℕ} (hnev : nev < n) {tss : List (List Text.Mon)} (hne : ∀ ts ∈ tss, ts ≠ [])
    (hE : ∀ ts ∈ tss, ExpandedQ n ts) {g0 g : List (List ((Fin n → ℕ) × ℤ))}
    (h : List.Forall₂ (ImportPolyQ n nev) (tss.map (qqPoly n)) g0) (hg : g.Perm g0) :
    ∃ Z, primitive g = some Z ∧ ∃ tss', tss'.Perm tss ∧ List.Forall₂ (GenOf nev) tss' Z := by
  obtain ⟨ks, hks, h⟩ : ∃ tss' : List (List Text.Mon), tss'.Perm tss ∧
      List.Forall₂ (fun ts f => ImportPolyQ n nev (qqPoly n ts) f) tss' g := by
    rw [List.forall₂_map_left_iff] at h
    obtain ⟨l, hl1, hl2⟩ := List.perm_comp_forall₂ hg h.flip
    exact ⟨l, hl2, hl1.flip⟩
  have hfne : ∀ (i : ℕ) (hi : i < g.length) (hi' : i < ks.length), g[i] ≠ [] ∧ ∀ a l, g[i].map Prod.snd = a :: l → a ≠ 0 := by
    intro i hi hi'
    have hm := hks.mem_iff.mp (List.getElem_mem hi')
    obtain ⟨h1, -⟩ := importPolyQ_spec hnev (hE _ hm) ((List.forall₂_iff_get.mp h).2 i hi' hi)
    constructor
    · intro h0
      simp only [List.get_eq_getElem, h0] at h1
      have := List.nil_perm.mp h1
      unfold intTerms at this
      exact hne _ hm (List.map_eq_nil_iff.mp this)
    · intro a l hal
      have : a ∈ g[i].map Prod.snd := by rw [hal]; exact List.mem_cons_self
      obtain ⟨t, ht, rfl⟩ := List.mem_map.mp this
      exact intTerms_ne_zero (hE _ hm) t (h1.mem_iff.mp ht)
  have hkl := h.length_eq
  obtain ⟨out, e, hout⟩ := Props.C41_basis (g.map fun f => (f.length % 4, f.map Prod.snd)) (by
    intro r hr
    obtain ⟨f, hf, rfl⟩ := List.mem_map.mp hr
    obtain ⟨i, hi, rfl⟩ := List.mem_iff_getElem.mp hf
    exact ⟨by simpa using (hfne i hi (by omega)).1, by simp⟩)
  refine ⟨_, by unfold primitive; rw [e]; rfl, ks, hks, ?_⟩
  rw [List.forall₂_map_left_iff] at hout
  have hol := hout.length_eq
  rw [List.forall₂_iff_get]
  refine ⟨by simp [← hol, hkl], fun i hi hi' => ?_⟩
  have hig : i < g.length := by omega
  have hm := hks.mem_iff.mp (List.getElem_mem hi)
  obtain ⟨-, h2⟩ := (List.forall₂_iff_get.mp hout).2 i hig (by omega)
  obtain ⟨hn0, ha⟩ := hfne i hig hi
  obtain ⟨t, f, hf⟩ := List.exists_cons_of_ne_nil hn0
  simp only [List.get_eq_getElem] at h2
  obtain ⟨u, b, m, k1, k2, k3, k4⟩ := h2 t.2 (f.map Prod.snd) (by rw [hf]; rfl) (ha t.2 (f.map Prod.snd) (by rw [hf]; rfl))
  have := genOf_one hnev (hE _ hm) ((List.forall₂_iff_get.mp h).2 i hi hig) hn0 k1 k2 k3 k4
  simpa using this

/-! ### Modulo a prime -/

open MvPolynomial

theorem modOne {nev p : ℕ} (hp : p.Prime) (hp2 : p < 2 ^ 31) {z : List ((Fin n → ℕ) × ℤ)}
    (hs : (z.map Prod.fst).Pairwise fun a b => (ordKind nev).lt b a) (hne : z ≠ []) (hc : ∀ t ∈ z, ¬ (p : ℤ) ∣ t.2) :
    ∃ g : Poly n, ((normInit (2 * ffBits p) (ffBits p) p (z.map fun t => (t.2 % (p : ℤ)).toNat)).map fun cs =>
        (z.map Prod.fst).zip cs) = some g ∧ PolyOk (ordKind nev) p g ∧ g.map Prod.fst = z.map Prod.fst ∧
      ∃ u : ZMod p, u ≠ 0 ∧ toMv p g = C u * MvPolynomial.map (Int.castRingHom (ZMod p)) (termsMv z) := by
  have hF : Fact p.Prime := ⟨hp⟩
  have hp0 : (p : ℤ) ≠ 0 := by have := hp.pos; omega
  let c : (Fin n → ℕ) × ℤ → ℕ := fun t => (t.2 % (p : ℤ)).toNat
  have hclt : ∀ t, c t < p := by
    intro t
    have h1 := Int.emod_lt_of_pos t.2 (show (0 : ℤ) < p by have := hp.pos; omega)
    have h2 := Int.emod_nonneg t.2 hp0
    simp only [c]
    omega
  have hcpos : ∀ t ∈ z, 0 < c t := by
    intro t ht
    have h2 := Int.emod_nonneg t.2 hp0
    have h3 : t.2 % (p : ℤ) ≠ 0 := fun h => hc t ht (Int.dvd_of_emod_eq_zero h)
    simp only [c]
    omega
  have hccast : ∀ t, ((c t : ℕ) : ZMod p) = ((t.2 : ℤ) : ZMod p) := by
    intro t
    have h2 := Int.emod_nonneg t.2 hp0
    have : ((c t : ℕ) : ℤ) = t.2 % p := by simp only [c]; omega
    rw [← Int.cast_natCast, this, ZMod.intCast_mod]
  change ∃ g : Poly n, ((normInit (2 * ffBits p) (ffBits p) p (z.map c)).map fun cs => (z.map Prod.fst).zip cs) = some g ∧ _
  obtain ⟨t0, r, rfl⟩ := List.exists_cons_of_ne_nil hne
  obtain ⟨hw, ho⟩ := ffBits_width hp hp2
  have hsq : (p - 1) * (p - 1) < 2 ^ 63 :=
    lt_of_le_of_lt (Nat.mul_le_mul (show p - 1 ≤ 2 ^ 31 - 1 by omega) (show p - 1 ≤ 2 ^ 31 - 1 by omega)) (by norm_num)
  obtain ⟨inv, i1, i2, i3⟩ := normInit_spec (r := r.map c) hw ho hsq hp (hcpos t0 List.mem_cons_self) (by
    rw [← List.map_cons]
    intro b hb
    obtain ⟨t, -, rfl⟩ := List.mem_map.mp hb
    exact hclt t)
  rw [show (t0 :: r).map c = c t0 :: r.map c from rfl, i3]
  have hg : ((t0 :: r).map Prod.fst).zip ((c t0 :: r.map c).map fun b => b * inv % p) =
      (t0 :: r).map fun t => (t.1, c t * inv % p) := by
    rw [← List.map_cons, List.map_map, List.zip_map']
    rfl
  have hhead : c t0 * inv % p = 1 := by rw [Nat.mul_comm]; exact i2
  have hinv0 : ((inv : ℕ) : ZMod p) ≠ 0 := by
    intro h
    rw [ZMod.natCast_eq_zero_iff] at h
    have : p ∣ inv * c t0 := h.mul_right _
    rw [Nat.dvd_iff_mod_eq_zero, i2] at this
    omega
  refine ⟨_, by rw [Option.map_some, hg], ⟨⟨r.map fun t => (t.1, c t * inv % p), ?_⟩, ?_, ?_⟩, ?_, ((inv : ℕ) : ZMod p), hinv0, ?_⟩
  · simp [F4.lead, hhead]
  · rw [List.map_map]
    exact hs
  · intro x hx
    obtain ⟨t, ht, rfl⟩ := List.mem_map.mp hx
    refine ⟨Nat.pos_of_ne_zero fun h => ?_, Nat.mod_lt _ hp.pos⟩
    have h := Nat.dvd_of_mod_eq_zero h
    rcases (Nat.Prime.dvd_mul hp).mp h with h | h
    · exact absurd (Nat.le_of_dvd (hcpos t ht) h) (by have := hclt t; omega)
    · exact hinv0 ((ZMod.natCast_eq_zero_iff _ _).mpr h)
  · rw [List.map_map]
    rfl
  · unfold termsMv toMv
    rw [map_list_sum, ← List.sum_map_mul_left, List.map_map, List.map_map]
    congr 1
    apply List.map_congr_left
    intro t _
    simp only [Function.comp_apply, map_monomial, C_mul_monomial, eq_intCast]
    rw [ZMod.natCast_mod, Nat.cast_mul, hccast, mul_comm]

/-- The generators modulo a prime which divides none of their coefficients. -/
theorem modGens_spec {nev p : ℕ} (hp : p.Prime) (hp2 : p < 2 ^ 31) : ∀ {tss : List (List Text.Mon)} {Z : List (List ((Fin n → ℕ) × ℤ))},
    List.Forall₂ (GenOf nev) tss Z → isBad p Z = false →
    ∃ F, modGens p Z = some F ∧ List.Forall₂ (fun z f => PolyOk (ordKind nev) p f ∧ f.map Prod.fst = z.map Prod.fst ∧
      ∃ u : ZMod p, u ≠ 0 ∧ toMv p f = C u * MvPolynomial.map (Int.castRingHom (ZMod p)) (termsMv z)) Z F := by
  intro tss Z h
  induction h with
  | nil => intro _; exact ⟨[], rfl, .nil⟩
  | @cons ts z tss Z h1 h2 ih =>
    intro hb
    simp only [isBad, List.any_cons, Bool.or_eq_false_iff] at hb
    obtain ⟨F, e, hF⟩ := ih hb.2
    obtain ⟨t, z', hz, -⟩ := h1.pos
    obtain ⟨g, e1, e2⟩ := modOne hp hp2 h1.sorted (by rw [hz]; simp) (by
      intro t ht hd
      have := List.any_eq_false.mp hb.1 t ht
      rw [beq_iff_eq] at this
      exact this (Int.emod_eq_zero_of_dvd hd))
    refine ⟨g :: F, ?_, .cons e2 hF⟩
    unfold modGens at e ⊢
    rw [List.mapM_cons, e1, e]
    rfl

/-! ### Ideals -/

/-- The generators with integer coefficients. -/
noncomputable def intGens (n : ℕ) (tss : List (List Text.Mon)) : Fin tss.length → MvPolynomial (Fin n) ℤ :=
  fun i => termsMv (intTerms n tss[i])

theorem idealOver_intGens (K : Type*) [Field K] (tss : List (List Text.Mon)) :
    idealOver K (intGens n tss) = Ideal.span { q | ∃ ts ∈ tss, q = MvPolynomial.map (Int.castRingHom K) (termsMv (intTerms n ts)) } := by
  unfold idealOver
  congr 1
  ext q
  constructor
  · rintro ⟨i, rfl⟩
    exact ⟨_, List.getElem_mem i.isLt, rfl⟩
  · rintro ⟨ts, hts, rfl⟩
    obtain ⟨i, hi, rfl⟩ := List.mem_iff_getElem.mp hts
    exact ⟨⟨i, hi⟩, rfl⟩

theorem span_assoc {K : Type*} [Field K] {α β : Type*} {l : List α} {l' : List β} {a : α → MvPolynomial (Fin n) K}
    {b : β → MvPolynomial (Fin n) K} (h : List.Forall₂ (fun x y => ∃ u : K, u ≠ 0 ∧ b y = C u * a x) l l') :
    Ideal.span { g | ∃ y ∈ l', g = b y } = Ideal.span { g | ∃ x ∈ l, g = a x } := by
  apply le_antisymm
  · rw [Ideal.span_le]
    rintro g ⟨y, hy, rfl⟩
    obtain ⟨i, hi, rfl⟩ := List.mem_iff_getElem.mp hy
    have hi' : i < l.length := by rw [h.length_eq]; exact hi
    obtain ⟨u, -, hu⟩ := (List.forall₂_iff_get.mp h).2 i hi' hi
    simp only [List.get_eq_getElem] at hu
    rw [SetLike.mem_coe, hu]
    exact Ideal.mul_mem_left _ _ (Ideal.subset_span ⟨_, List.getElem_mem hi', rfl⟩)
  · rw [Ideal.span_le]
    rintro g ⟨x, hx, rfl⟩
    obtain ⟨i, hi, rfl⟩ := List.mem_iff_getElem.mp hx
    have hi' : i < l'.length := by rw [← h.length_eq]; exact hi
    obtain ⟨u, hu0, hu⟩ := (List.forall₂_iff_get.mp h).2 i hi hi'
    simp only [List.get_eq_getElem] at hu
    have : a l[i] = C u⁻¹ * b l'[i] := by
      rw [hu, ← mul_assoc, ← C_mul, inv_mul_cancel₀ hu0, C_1, one_mul]
    rw [SetLike.mem_coe, this]
    exact Ideal.mul_mem_left _ _ (Ideal.subset_span ⟨_, List.getElem_mem hi', rfl⟩)

theorem termsMv_perm {l l' : List ((Fin n → ℕ) × ℤ)} (h : l.Perm l') : termsMv l = termsMv l' := (h.map _).sum_eq

theorem termsMv_mul (u : ℤ) (l : List ((Fin n → ℕ) × ℤ)) : termsMv (l.map fun t => (t.1, u * t.2)) = C u * termsMv l := by
  unfold termsMv
  rw [← List.sum_map_mul_left, List.map_map]
  congr 1
  apply List.map_congr_left
  intro t _
  simp only [Function.comp_apply, C_mul_monomial]

/-- The ideal of the generators with integer coefficients, over a field in which no denominator is zero. -/
theorem idealOver_field (K : Type*) [Field K] {tss : List (List Text.Mon)} (hd : ∀ ts ∈ tss, ∀ t ∈ ts, ((t.denom : ℤ) : K) ≠ 0) :
    idealOver K (intGens n tss) = Ideal.span { q | ∃ ts ∈ tss, q = (ts.map fun t : Text.Mon =>
      monomial (Finsupp.equivFunOnFinite.symm (t.vec n)) ((t.numer : K) / (t.denom : K))).sum } := by
  rw [idealOver_intGens]
  refine span_assoc (l := tss) (l' := tss)
    (a := fun ts => (ts.map fun t : Text.Mon => monomial (Finsupp.equivFunOnFinite.symm (t.vec n)) ((t.numer : K) / (t.denom : K))).sum)
    (b := fun ts => MvPolynomial.map (Int.castRingHom K) (termsMv (intTerms n ts))) ?_
  rw [List.forall₂_same]
  intro ts hts
  have hd := hd ts hts
  refine ⟨((ts.map Text.Mon.denom).prod : ℤ), ?_, ?_⟩
  · rw [← eq_intCast (Int.castRingHom K), map_list_prod, Ne, List.prod_eq_zero_iff]
    intro h
    obtain ⟨v, hv, h⟩ := List.mem_map.mp h
    obtain ⟨t, ht, rfl⟩ := List.mem_map.mp hv
    exact hd t ht h
  unfold termsMv intTerms
  rw [map_list_sum, ← List.sum_map_mul_left, List.map_map, List.map_map]
  congr 1
  apply List.map_congr_left
  intro t ht
  have h1 : t.denom ∣ (ts.map Text.Mon.denom).prod := List.dvd_prod (List.mem_map_of_mem ht)
  obtain ⟨k, hk⟩ := h1
  have hdq := hd t ht
  have hd : t.denom ≠ 0 := by rintro h; rw [h] at hdq; simp at hdq
  simp only [Function.comp_apply, map_monomial, eq_intCast, C_mul_monomial, F4.fs]
  rw [hk, Int.mul_ediv_cancel_left _ hd]
  congr 1
  push_cast
  rw [mul_comm (t.denom : K), mul_assoc, mul_div_assoc', mul_div_cancel_left₀ _ hdq]

/-- Over the rationals the ideal is that of the file. -/
theorem idealOver_rat {tss : List (List Text.Mon)} (hE : ∀ ts ∈ tss, ExpandedQ n ts) :
    idealOver ℚ (intGens n tss) = Text.idealQ n tss :=
  idealOver_field ℚ fun ts hts t ht => by exact_mod_cast (hE ts hts).denom t ht

/-- Modulo a prime that does not divide the generators in the file the ideal is the one they generate. -/
theorem idl_eq {nev p : ℕ} [hp : Fact p.Prime] {tss tss' : List (List Text.Mon)} (hperm : tss'.Perm tss) {Z : List (List ((Fin n → ℕ) × ℤ))}
    (hZ : List.Forall₂ (GenOf nev) tss' Z) (hcoef : ∀ ts ∈ tss, ∃ t ∈ intTerms n ts, ¬ (p : ℤ) ∣ t.2) {F : List (Poly n)}
    (hF : List.Forall₂ (fun z f => PolyOk (ordKind nev) p f ∧ f.map Prod.fst = z.map Prod.fst ∧
      ∃ u : ZMod p, u ≠ 0 ∧ toMv p f = C u * MvPolynomial.map (Int.castRingHom (ZMod p)) (termsMv z)) Z F) :
    Ideal.span { g | ∃ f ∈ F, g = toMv p f } = idealOver (ZMod p) (intGens n tss) := by
  have h1 : Ideal.span { g | ∃ f ∈ F, g = toMv p f } = Ideal.span { g | ∃ z ∈ Z, g = MvPolynomial.map (Int.castRingHom (ZMod p)) (termsMv z) } :=
    span_assoc (hF.imp fun z f h => h.2.2)
  rw [h1, idealOver_intGens]
  have h2 : { q | ∃ ts ∈ tss, q = MvPolynomial.map (Int.castRingHom (ZMod p)) (termsMv (intTerms n ts)) } =
      { q | ∃ ts ∈ tss', q = MvPolynomial.map (Int.castRingHom (ZMod p)) (termsMv (intTerms n ts)) } := by
    ext q
    simp only [Set.mem_ofPred_eq, hperm.mem_iff]
  rw [h2]
  symm
  refine span_assoc (l := Z) (l' := tss') (a := fun z => MvPolynomial.map (Int.castRingHom (ZMod p)) (termsMv z))
    (b := fun ts => MvPolynomial.map (Int.castRingHom (ZMod p)) (termsMv (intTerms n ts))) ?_
  rw [List.forall₂_iff_get] at hZ ⊢
  refine ⟨hZ.1.symm, fun i hi hi' => ?_⟩
  obtain ⟨u, hu0, hu⟩ := (hZ.2 i hi' hi).mult
  have hm := hperm.mem_iff.mp (List.getElem_mem hi')
  refine ⟨(u : ZMod p), ?_, ?_⟩
  · intro h
    rw [ZMod.intCast_zmod_eq_zero_iff_dvd] at h
    obtain ⟨t, ht, hd⟩ := hcoef _ hm
    obtain ⟨s, -, rfl⟩ := List.mem_map.mp (hu.mem_iff.mpr ht)
    exact hd (h.mul_right _)
  · rw [← termsMv_perm hu, termsMv_mul, map_mul, map_C]
    rfl

end Verif.EndToEndQq
