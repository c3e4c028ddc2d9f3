import Verif.Echelon
import Verif.Props.Arith

/-! Property theorems for the linear algebra over prime fields: C19, C20, C47. -/

namespace Verif.Props
open Verif.RowReduce Verif.Normalize Verif.Echelon

/-! ## C19: reduction of a row by known pivots -/

/-- What C19 asks of the reduction of the dense row `dr` by the pivots `pivs`: the new dense row is the old
one minus a combination of pivot rows (over `Z/p`), it is zero in every pivot column and has entries in
`[0, p)`; `NULL` is returned only if it is zero; otherwise the returned sparse row has the same entries,
in increasing columns, none of them zero or in a pivot column. -/
def ReductionExact (p : Nat) (pivs : Nat → Option Row) (dr dr' : Nat → Int) (res : Option Row) : Prop :=
  (fun c => ((dr c - dr' c : Int) : ZMod p)) ∈
      Submodule.span (ZMod p) { v | ∃ j r, pivs j = some r ∧ v = rvec p r } ∧
    (∀ c, 0 ≤ dr' c ∧ dr' c < p) ∧ (∀ c, pivs c ≠ none → dr' c = 0) ∧
    (res = none → ∀ c, dr' c = 0) ∧
    (∀ r, res = some r → r ≠ [] ∧ (r.map Prod.fst).Pairwise (· < ·) ∧
      (∀ t ∈ r, 0 < t.2 ∧ pivs t.1 = none) ∧ ∀ c a, (c, a) ∈ r ↔ dr' c ≠ 0 ∧ dr' c = (a : Int))

theorem mem_of_rvec {p : Nat} {r : Row} (hs : (r.map Prod.fst).Pairwise (· < ·))
    {t : Nat × Nat} (ht : t ∈ r) : rvec p r t.1 = ((t.2 : Nat) : ZMod p) := by
  induction r with
  | nil => simp at ht
  | cons u r ih =>
    rw [List.map_cons, List.pairwise_cons] at hs
    rw [rvec_cons, Pi.add_apply]
    rcases List.mem_cons.mp ht with rfl | ht
    · rw [Pi.single_eq_same, rvec_zero p r _ (fun v hv => by
        have := hs.1 v.1 (List.mem_map_of_mem hv); omega), add_zero]
    · have := hs.1 t.1 (List.mem_map_of_mem ht)
      rw [ih hs.2 ht, Pi.single_eq_of_ne (by omega), zero_add]

theorem small_eq {p : Nat} {x : Int} (h : 0 ≤ x ∧ x < p) {a : Nat} (ha : a < p)
    (e : ((a : Nat) : ZMod p) = ((x : Int) : ZMod p)) : x = a := by
  rw [← Int.cast_natCast, ZMod.intCast_eq_intCast_iff, Int.ModEq, Int.emod_eq_of_lt h.1 h.2,
    Int.emod_eq_of_lt (by positivity) (by exact_mod_cast ha)] at e
  exact e.symm

theorem reductionExact_of_ok {p ncols ncl dpiv : Nat} (hp : 0 < p) {pivs : Nat → Option Row}
    {dr dr' : Nat → Int} {res : Option Row} (h : ReduceOk p ncols ncl pivs dpiv dr dr' res) :
    ReductionExact p pivs dr dr' res := by
  refine ⟨?_, h.range, h.zeroPiv, ?_, ?_⟩
  · have h1 := Submodule.neg_mem _ (pivSpan_le_all _ _ _ _ h.span)
    have h2 : (fun c => ((dr c - dr' c : Int) : ZMod p)) = - (vec p dr' - vec p dr) := by
      funext c; simp [vec]
    rw [h2]
    exact h1
  · intro hn c
    have h1 := congrFun (h.null hn) c
    exact small_eq (h.range c) hp (by unfold vec at h1; rw [h1]; simp)
  · intro r hr
    obtain ⟨q1, q2, q3, q4⟩ := h.row r hr
    refine ⟨q2, q3, fun t ht => ⟨(q4 t ht).2.2.2.1, (q4 t ht).2.2.2.2.2⟩, fun c a => ?_⟩
    have hval : ∀ t ∈ r, dr' t.1 = t.2 := fun t ht => by
      have h1 := mem_of_rvec (p := p) q3 ht
      rw [q1] at h1
      exact small_eq (h.range t.1) (q4 t ht).2.2.2.2.1 h1.symm
    constructor
    · intro hm
      have h1 := hval _ hm
      have h2 := (q4 _ hm).2.2.2.1
      simp only at h1 h2
      exact ⟨by omega, h1⟩
    · rintro ⟨h1, h2⟩
      by_cases hc : ∃ t ∈ r, t.1 = c
      · obtain ⟨t, ht, rfl⟩ := hc
        have h3 := hval t ht
        have : t.2 = a := by omega
        rw [← this]; exact ht
      · exfalso
        have h3 := rvec_zero p r c (fun t ht he => hc ⟨t, ht, he⟩)
        rw [q1] at h3
        unfold vec at h3
        exact h1 (small_eq (h.range c) hp (by rw [h3]; simp))

/-- Preconditions of the reduction that all callers establish: the pivot at column `i` starts in column
`i` with coefficient 1, the dense row is zero left of the starting column and beyond the last column, and
every column left of `ncl` has a pivot (or is left of the starting column). -/
structure ReductionPre (p ncl ncols dpiv : Nat) (pivs : Nat → Option Row) (dr : Nat → Int) : Prop where
  piv : ∀ i r, pivs i = some r → PivRow p ncols i r
  start : dpiv ≤ ncols
  left : ncl ≤ ncols
  zeroLow : ∀ c, c < dpiv → dr c = 0
  zeroHigh : ∀ c, ncols ≤ c → dr c = 0
  known : ∀ c, c < ncl → c < dpiv ∨ pivs c ≠ none

/-- C19 for primes below `2^31`, `reduce_dense_row_by_known_pivots_sparse_31_bit`: for every matrix, every
pivot set and every dense row with entries in `[0, p²)` the code terminates without signed overflow and
without writing beyond the row it allocates, and the reduction is exact. -/
theorem C19_reduce_31_bit (p ncl ncols dpiv : Nat) (pivs : Nat → Option Row) (dr : Nat → Int)
    (hp : 0 < p) (hp31 : p < 2 ^ 31) (hpre : ReductionPre p ncl ncols dpiv pivs dr)
    (hdr : ∀ c, 0 ≤ dr c ∧ dr c < (p : Int) * p) :
    ∃ dr' res, reduceRow (elim31 p) p pivs ncl ncols dpiv dr = some (dr', res) ∧
      ReductionExact p pivs dr dr' res := by
  have h1 : (p : Int) * p < 2 ^ 62 := by
    have : (p : Int) < 2 ^ 31 := by exact_mod_cast hp31
    have h0 : (0 : Int) < p := by exact_mod_cast hp
    nlinarith
  obtain ⟨dr', res, e, a⟩ := reduceRow_spec (elim31_spec p ncols h1) hp (by omega) hpre.piv hdr hpre.start
    hpre.left hpre.zeroLow hpre.zeroHigh hpre.known
  exact ⟨dr', res, e, reductionExact_of_ok hp a⟩

/-- C19 for the lazy variants (`_17_bit` of la_ff_32.c and the functions of la_ff_16.c and la_ff_8.c),
which accumulate without reduction: exact whenever `B + ncols (p-1)² < 2^63`, where `B` bounds the entries
of the dense row. -/
theorem C19_reduce_lazy (p ncl ncols dpiv : Nat) (pivs : Nat → Option Row) (dr : Nat → Int) (B : Int)
    (hp : 0 < p) (hp32 : p ≤ 2 ^ 32) (hpre : ReductionPre p ncl ncols dpiv pivs dr)
    (hBp : (p : Int) - 1 ≤ B) (hdr : ∀ c, 0 ≤ dr c ∧ dr c ≤ B)
    (hB : B + ncols * (((p : Int) - 1) * (p - 1)) < 2 ^ 63) :
    ∃ dr' res, reduceRow (elim17 p) p pivs ncl ncols dpiv dr = some (dr', res) ∧
      ReductionExact p pivs dr dr' res := by
  have hpp : (0 : Int) < p := by exact_mod_cast hp
  obtain ⟨dr', res, e, a⟩ := reduceRow_spec (elim17_spec p ncols B hp (by linarith) hBp hB) hp hp32 hpre.piv
    (fun c => ⟨(hdr c).1, by have := (hdr c).2; simpa using this⟩) hpre.start
    hpre.left hpre.zeroLow hpre.zeroHigh hpre.known
  exact ⟨dr', res, e, reductionExact_of_ok hp a⟩

/-- C19: a bound on the number of columns for which the accumulators of the lazy variant selected for
`p < 2^18` (io.c 1016) cannot overflow: fewer than `2^27` columns. -/
theorem C19_reduce_17_bit_columns (p ncl ncols dpiv : Nat) (pivs : Nat → Option Row) (dr : Nat → Int)
    (hp : 0 < p) (hp18 : p < 2 ^ 18) (hn : ncols < 2 ^ 27) (hpre : ReductionPre p ncl ncols dpiv pivs dr)
    (hdr : ∀ c, 0 ≤ dr c ∧ dr c < p) :
    ∃ dr' res, reduceRow (elim17 p) p pivs ncl ncols dpiv dr = some (dr', res) ∧
      ReductionExact p pivs dr dr' res := by
  have hpp : (0 : Int) < p := by exact_mod_cast hp
  have h18 : (p : Int) - 1 ≤ 2 ^ 18 - 1 := by
    have : (p : Int) < 2 ^ 18 := by exact_mod_cast hp18
    linarith
  refine C19_reduce_lazy p ncl ncols dpiv pivs dr (p - 1) hp (by omega) hpre le_rfl
    (fun c => ⟨(hdr c).1, by have := (hdr c).2; omega⟩) ?_
  have hn' : (ncols : Int) ≤ 2 ^ 27 - 1 := by omega
  have hn0 : (0 : Int) ≤ ncols := by positivity
  have h1 : ((p : Int) - 1) * (p - 1) ≤ (2 ^ 18 - 1) * (2 ^ 18 - 1) :=
    mul_le_mul h18 h18 (by linarith) (by norm_num)
  have h2 : (ncols : Int) * (((p : Int) - 1) * (p - 1)) ≤ (2 ^ 27 - 1) * ((2 ^ 18 - 1) * (2 ^ 18 - 1)) :=
    mul_le_mul hn' h1 (mul_self_nonneg _) (by norm_num)
  norm_num at h2 h18 ⊢
  linarith

/-- Beyond any bound the lazy accumulation does overflow: with one elimination of a row and an entry
already close to `2^63`, `elim17` is undefined. -/
theorem C19_lazy_overflow : ∃ (p : Nat) (x : Int) (r : Row) (dr : Nat → Int),
    p.Prime ∧ 0 < x ∧ x < p ∧ (∀ c, 0 ≤ dr c ∧ dr c < 2 ^ 63) ∧ (∀ t ∈ r, t.2 < p) ∧ elim17 p x r dr = none := by
  refine ⟨131071, 1, [(0, 1), (1, 131070)], fun _ => 2 ^ 63 - 1000000, by norm_num, by norm_num, by norm_num,
    fun _ => by norm_num, by decide, ?_⟩
  unfold elim17
  rw [List.foldlM_cons]
  norm_num [add17, i64, Function.update]

/-- Hypotheses of C19 for a concrete matrix over `Z/7`: pivots in columns 0 and 2, dense row
`3 5 48 0 2`. -/
def exPivs : Nat → Option Row := fun i =>
  if i = 0 then some [(0, 1), (3, 6), (2, 4)] else if i = 2 then some [(2, 1), (4, 5)] else none

theorem exPivs_row : ∀ i r, exPivs i = some r → PivRow 7 5 i r := by
  intro i r h
  unfold exPivs at h
  split_ifs at h with h1 h2
  · subst h1; rw [← Option.some.inj h]; exact ⟨⟨_, rfl⟩, by decide, by decide, by decide⟩
  · subst h2; rw [← Option.some.inj h]; exact ⟨⟨_, rfl⟩, by decide, by decide, by decide⟩

example : ReductionPre 7 1 5 0 exPivs
    (fun c => if c = 0 then 3 else if c = 1 then 5 else if c = 2 then 48 else if c = 4 then 2 else 0) := by
  refine ⟨exPivs_row, by decide, by decide, fun c hc => by omega, fun c hc => ?_, fun c hc => Or.inr ?_⟩
  · rw [if_neg (by omega), if_neg (by omega), if_neg (by omega), if_neg (by omega)]
  · have : c = 0 := by omega
    subst this; simp [exPivs]

/-- The reduction of that row: `3 5 48 0 2 - 3*(1 0 4 6 0) - 1*(0 0 1 0 5) = 0 5 0 3 4` over `Z/7`
(`48 - 12 = 36 = 1`). -/
example : (reduceRow (elim31 7) 7 exPivs 1 5 0
    (fun c => if c = 0 then 3 else if c = 1 then 5 else if c = 2 then 48 else if c = 4 then 2 else 0)).map
      (fun x => (x.2, (List.range 5).map x.1)) = some (some [(1, 5), (3, 3), (4, 4)], [0, 5, 0, 3, 4]) := by
  decide +kernel

/-! ## C20: normalisation -/

/-- C20 for the matrix rows: for every prime `p` within the coefficient width (`w`, `out` are the widths
of the product type and of the coefficients: 16/8, 32/16, 64/32 bit) and every row with reduced
coefficients and non-zero leading coefficient, the normalised row has leading coefficient 1 and is the
input multiplied by one unit. -/
theorem C20_normalise_row (w out p : Nat) (hwo : (w, out) ∈ [(16, 8), (32, 16), (64, 32)]) (hp : p.Prime)
    (hpo : p < 2 ^ out) (a : Nat) (r : List Nat) (ha : 0 < a) (hr : ∀ b ∈ a :: r, b < p) :
    ∃ (inv : Nat) (r' : List Nat), normSparse w out p (a :: r) = some (1 :: r') ∧ ¬ p ∣ inv ∧
      1 :: r' = (a :: r).map (fun b => b * inv % p) := by
  have hw : p < 2 ^ (w - 1) ∧ (p - 1) * (p - 1) < 2 ^ w := by
    have hsq : (p - 1) * (p - 1) ≤ (2 ^ out - 1) * (2 ^ out - 1) := Nat.mul_le_mul (by omega) (by omega)
    simp only [List.mem_cons, Prod.mk.injEq, List.not_mem_nil, or_false] at hwo
    rcases hwo with ⟨rfl, rfl⟩ | ⟨rfl, rfl⟩ | ⟨rfl, rfl⟩
    · exact ⟨by omega, lt_of_le_of_lt hsq (by norm_num)⟩
    · exact ⟨by omega, lt_of_le_of_lt hsq (by norm_num)⟩
    · exact ⟨by omega, lt_of_le_of_lt hsq (by norm_num)⟩
  obtain ⟨inv, h1, h2, h3⟩ := normSparse_spec (r := r) hw.1 hpo.le hw.2 hp ha hr
  have h4 : a * inv % p = 1 := by rw [Nat.mul_comm]; exact h2
  refine ⟨inv, r.map (fun b => b * inv % p), by rw [h3, List.map_cons, h4], ?_, by rw [List.map_cons, h4]⟩
  intro hd
  have : p ∣ inv * a := hd.mul_right _
  rw [Nat.dvd_iff_mod_eq_zero, h2] at this
  omega

/-- C20 for the initial basis (`normalize_initial_basis_ff_{8,16,32}`, characteristic below `2^31`). -/
theorem C20_normalise_initial (w out p : Nat) (hwo : (w, out) ∈ [(16, 8), (32, 16), (64, 32)]) (hp : p.Prime)
    (hpo : p < 2 ^ out) (hp31 : p < 2 ^ 31) (a : Nat) (r : List Nat) (ha : 0 < a) (hr : ∀ b ∈ a :: r, b < p) :
    ∃ (inv : Nat) (r' : List Nat), normInit w out p (a :: r) = some (1 :: r') ∧ ¬ p ∣ inv ∧
      1 :: r' = (a :: r).map (fun b => b * inv % p) := by
  have hsq : (p - 1) * (p - 1) ≤ (2 ^ 31 - 1) * (2 ^ 31 - 1) := Nat.mul_le_mul (by omega) (by omega)
  have hw : p < 2 ^ (w - 1) := by
    simp only [List.mem_cons, Prod.mk.injEq, List.not_mem_nil, or_false] at hwo
    rcases hwo with ⟨rfl, rfl⟩ | ⟨rfl, rfl⟩ | ⟨rfl, rfl⟩ <;> omega
  obtain ⟨inv, h1, h2, h3⟩ := normInit_spec (r := r) hw hpo.le (lt_of_le_of_lt hsq (by norm_num)) hp ha hr
  have h4 : a * inv % p = 1 := by rw [Nat.mul_comm]; exact h2
  refine ⟨inv, r.map (fun b => b * inv % p), by rw [h3, List.map_cons, h4], ?_, by rw [List.map_cons, h4]⟩
  intro hd
  have : p ∣ inv * a := hd.mul_right _
  rw [Nat.dvd_iff_mod_eq_zero, h2] at this
  omega

example : Nat.Prime 2147483647 ∧ 2147483647 < 2 ^ 32 ∧ 0 < 123456 ∧
    ∀ b ∈ [123456, 0, 2147483646, 7], b < 2147483647 := ⟨prime_2147483647, by decide⟩
example : normSparse 64 32 7 [3, 5, 0, 6] = some [1, 4, 0, 2] := by decide +kernel
example : normInit 16 8 251 [3, 5, 0, 6] = some [1, 169, 0, 2] := by decide +kernel

/-! ## C47: the parallel echelon form -/

/-- The parameters of the 31 bit variant. -/
def par31 (p ncl ncols : Nat) : Par := ⟨elim31 p, p, 64, 32, ncl, ncols⟩
/-- The parameters of the lazy 32 bit variant (`p < 2^18`). -/
def par17 (p ncl ncols : Nat) : Par := ⟨elim17 p, p, 64, 32, ncl, ncols⟩

theorem par31_ok (p ncl ncols : Nat) (hp : p.Prime) (hp31 : p < 2 ^ 31) (h : ncl ≤ ncols) :
    ParOk (par31 p ncl ncols) (Ok31 p) where
  elim := elim31_spec p ncols (by
    have : (p : Int) < 2 ^ 31 := by exact_mod_cast hp31
    have h0 : (0 : Int) < p := by exact_mod_cast hp.pos
    nlinarith)
  prime := hp
  hw := by simp only [par31]; omega
  ho := by simp only [par31]; omega
  hww := lt_of_le_of_lt (Nat.mul_le_mul (by omega : p - 1 ≤ 2 ^ 31)
    (by omega : p - 1 ≤ 2 ^ 31)) (by simp only [par31]; norm_num)
  h32 := by simp only [par31]; omega
  hncl := h

theorem par17_ok (p ncl ncols : Nat) (hp : p.Prime) (hp18 : p < 2 ^ 18) (hn : ncols < 2 ^ 27)
    (h : ncl ≤ ncols) : ParOk (par17 p ncl ncols) (Ok17 p (p - 1)) where
  elim := elim17_spec p ncols (p - 1) hp.pos (by have := hp.pos; omega) le_rfl (by
    have hpp : (0 : Int) < p := by exact_mod_cast hp.pos
    have h18 : (p : Int) - 1 ≤ 2 ^ 18 - 1 := by
      have : (p : Int) < 2 ^ 18 := by exact_mod_cast hp18
      linarith
    have hn' : (ncols : Int) ≤ 2 ^ 27 - 1 := by omega
    have hn0 : (0 : Int) ≤ ncols := by positivity
    have h1 : ((p : Int) - 1) * (p - 1) ≤ (2 ^ 18 - 1) * (2 ^ 18 - 1) :=
      mul_le_mul h18 h18 (by linarith) (by norm_num)
    have h2 : (ncols : Int) * (((p : Int) - 1) * (p - 1)) ≤ (2 ^ 27 - 1) * ((2 ^ 18 - 1) * (2 ^ 18 - 1)) :=
      mul_le_mul hn' h1 (mul_self_nonneg _) (by norm_num)
    norm_num at h2 h18 ⊢
    linarith)
  prime := hp
  hw := by simp only [par17]; omega
  ho := by simp only [par17]; omega
  hww := lt_of_le_of_lt (Nat.mul_le_mul (by omega : p - 1 ≤ 2 ^ 31)
    (by omega : p - 1 ≤ 2 ^ 31)) (by simp only [par17]; norm_num)
  h32 := by simp only [par17]; omega
  hncl := h

/-- Input of the echelon form: known pivots exactly in the columns left of `ncl`, rows to be reduced. -/
structure EchelonPre (p ncl ncols : Nat) (pivs0 : Nat → Option Row) {n : Nat} (rows : Fin n → Row)
    (sc : Fin n → Nat) : Prop where
  left : ncl ≤ ncols
  piv : ∀ i r, pivs0 i = some r → PivRow p ncols i r
  known : ∀ c, pivs0 c ≠ none ↔ c < ncl
  start : ∀ t, sc t ≤ ncols
  rows : ∀ t, InRow p ncols (sc t) (rows t)

/-- `R` is a reduced row echelon form of everything `vs` spans modulo the span of the known pivots: the rows
are monic with increasing columns, entries in other pivot columns and in the known pivot columns are zero,
and known pivots and new rows together span the same space as known pivots and input rows. -/
def IsReducedEchelon (p ncl ncols : Nat) (pivs0 : Nat → Option Row) {n : Nat} (rows : Fin n → Row)
    (R : Nat → Option Row) : Prop :=
  (∀ i r, R i = some r → ncl ≤ i ∧ (∃ r', r = (i, 1) :: r') ∧ (r.map Prod.fst).Pairwise (· < ·) ∧
    ∀ t ∈ r, t.1 < ncols ∧ 0 < t.2 ∧ t.2 < p ∧ (t.1 ≠ i → R t.1 = none)) ∧
  Submodule.span (ZMod p) ({ v | ∃ j r, pivs0 j = some r ∧ v = rvec p r } ∪ { v | ∃ j r, R j = some r ∧ v = rvec p r }) =
    Submodule.span (ZMod p) ({ v | ∃ j r, pivs0 j = some r ∧ v = rvec p r } ∪ Set.range fun t => rvec p (rows t))

/-- Everything C47 claims, for one choice of parameters. -/
structure EchelonSound (P : Par) (pivs0 : Nat → Option Row) {n : Nat} (rows : Fin n → Row)
    (sc : Fin n → Nat) : Prop where
  /-- In every reachable state every unfinished thread can make its next step without undefined
  behaviour. -/
  progress : ∀ m c, Exec P m (initConf pivs0 rows sc) c → ∀ t, (c.th t).finished = false →
    thStep P c.pivs (c.th t) ≠ none
  /-- Executions have bounded length. -/
  bounded : ∃ N, ∀ m c, Exec P m (initConf pivs0 rows sc) c → m ≤ N
  /-- Whatever the interleaving, the interreduced result is a reduced echelon form. -/
  correct : ∀ m c, Exec P m (initConf pivs0 rows sc) c → (∀ t, (c.th t).finished = true) →
    ∃ R, interreduce P c.pivs = some R ∧ IsReducedEchelon P.p P.ncl P.ncols pivs0 rows R
  /-- The result does not depend on the interleaving. -/
  deterministic : ∀ m m' c c', Exec P m (initConf pivs0 rows sc) c → (∀ t, (c.th t).finished = true) →
    Exec P m' (initConf pivs0 rows sc) c' → (∀ t, (c'.th t).finished = true) →
    interreduce P c.pivs = interreduce P c'.pivs

theorem echelonSound {P : Par} {Ok : Nat → (Nat → Int) → Prop} (hP : ParOk P Ok) {pivs0 : Nat → Option Row}
    {n : Nat} {rows : Fin n → Row} {sc : Fin n → Nat} (h : EchelonPre P.p P.ncl P.ncols pivs0 rows sc) :
    EchelonSound P pivs0 rows sc := by
  have hinit := init_ok (Ok := Ok) hP h.piv (fun c hc => (h.known c).mpr hc) h.start h.rows
  have hv : ∀ t, rvec P.p (rows t) ∈ total P.p pivs0 rows := fun t =>
    Submodule.mem_sup_right (Submodule.subset_span ⟨t, rfl⟩)
  refine ⟨?_, ⟨∑ t, mu P ((initConf pivs0 rows sc).th t), ?_⟩, ?_, ?_⟩
  · intro m c he t hf
    obtain ⟨hc, _⟩ := exec_ok hP hv hinit he
    obtain ⟨x, pivs', e, _⟩ := thStep_ok hP (hv t) hc.1 (hc.2 t) hf
    rw [e]
    exact Option.some_ne_none _
  · intro m c he
    have := (exec_ok hP hv hinit he).2
    omega
  · intro m c he hfin
    obtain ⟨hc, _⟩ := exec_ok hP hv hinit he
    obtain ⟨R, e, a1, a2, _, a4⟩ := interreduce_ok hP h.known hc hfin
    refine ⟨R, e, ?_, ?_⟩
    · intro i r hir
      obtain ⟨b1, b3, b2⟩ := a1.row i r hir
      refine ⟨?_, b1.head, b3, fun t ht => ⟨(b1.bound t ht).1, b2 t ht, (b1.bound t ht).2,
        a1.red i r hir t ht⟩⟩
      by_contra hlt
      rw [a4 i (by omega)] at hir
      exact absurd hir (by simp)
    · rw [Submodule.span_union, Submodule.span_union]
      exact a2
  · intro m m' c c' he hfin he' hfin'
    obtain ⟨hc, _⟩ := exec_ok hP hv hinit he
    obtain ⟨hc', _⟩ := exec_ok hP hv hinit he'
    obtain ⟨R, e, a1, a2, a3, a4⟩ := interreduce_ok hP h.known hc hfin
    obtain ⟨R', e', a1', a2', a3', a4'⟩ := interreduce_ok hP h.known hc' hfin'
    have z : ∀ x ∈ allSpan P.p R, ∀ c, pivs0 c ≠ none → x c = 0 := fun x hx c hc =>
      a3 x hx c ((h.known c).mp hc)
    have z' : ∀ x ∈ allSpan P.p R', ∀ c, pivs0 c ≠ none → x c = 0 := fun x hx c hc =>
      a3' x hx c ((h.known c).mp hc)
    have hs := a2.trans a2'.symm
    rw [e, e', a1.unique hP.prime.one_lt a1' (le_antisymm (span_determined h.piv z z' hs)
      (span_determined h.piv z' z hs.symm))]

/-- C47, primes below `2^31`: `exact_sparse_reduced_echelon_form_ff_32` with the 31 bit reduction, any
number of rows, threads interleaved in any way. -/
theorem C47_parallel_echelon_31 (p ncl ncols : Nat) (hp : p.Prime) (hp31 : p < 2 ^ 31)
    (pivs0 : Nat → Option Row) {n : Nat} (rows : Fin n → Row) (sc : Fin n → Nat)
    (h : EchelonPre p ncl ncols pivs0 rows sc) : EchelonSound (par31 p ncl ncols) pivs0 rows sc :=
  echelonSound (P := par31 p ncl ncols) (par31_ok p ncl ncols hp hp31 h.left) h

/-- C47 with the lazy reduction, primes below `2^18`, fewer than `2^27` columns. -/
theorem C47_parallel_echelon_17 (p ncl ncols : Nat) (hp : p.Prime) (hp18 : p < 2 ^ 18) (hn : ncols < 2 ^ 27)
    (pivs0 : Nat → Option Row) {n : Nat} (rows : Fin n → Row) (sc : Fin n → Nat)
    (h : EchelonPre p ncl ncols pivs0 rows sc) : EchelonSound (par17 p ncl ncols) pivs0 rows sc :=
  echelonSound (P := par17 p ncl ncols) (par17_ok p ncl ncols hp hp18 hn h.left) h

/-- Hypotheses of C47 for a concrete matrix: two rows with the same leading column, so that the threads
compete. -/
example : EchelonPre 7 1 5 (fun i => if i = 0 then some [(0, 1), (2, 4), (3, 6)] else none)
    (fun t : Fin 2 => if t = 0 then [(0, 2), (1, 3), (4, 1)] else [(1, 5), (2, 2), (3, 1)])
    (fun t => if t = 0 then 0 else 1) := by
  refine ⟨by decide, ?_, ?_, by decide, ?_⟩
  · intro i r h
    split_ifs at h with h1
    subst h1; rw [← Option.some.inj h]; exact ⟨⟨_, rfl⟩, by decide, by decide, by decide⟩
  · intro c
    by_cases h : c = 0
    · simp [h]
    · simp [h]
  · intro t
    by_cases h : t = 0
    · subst h; exact ⟨by decide, by decide⟩
    · have : t = 1 := by omega
      subst this; exact ⟨by decide, by decide⟩

end Verif.Props
