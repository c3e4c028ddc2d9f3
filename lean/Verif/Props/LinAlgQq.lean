import Verif.EchelonQq

/-! Property theorems for the linear algebra over the rationals: C74, C75. -/

namespace Verif.Props.LinAlgQq
open Verif.EchelonQq

/-! ## C74: matrices of F4 over the rationals -/

/-- A matrix handed to the linear algebra: the known pivots are rows with leading columns `0, …, ncl-1`, the
others are to be reduced; a row has its smallest column first and no column twice. -/
structure MatrixOk (ncl ncols : Nat) (known : Nat → Option Row) {n : Nat} (rows : Fin n → Row) : Prop where
  le : ncl ≤ ncols
  dom : ∀ c, known c ≠ none ↔ c < ncl
  known : ∀ c r, known c = some r → (∃ a r', r = (c, a) :: r' ∧ a ≠ 0 ∧ ∀ t ∈ r', c < t.1 ∧ t.1 < ncols) ∧
    (r.map Prod.fst).Nodup
  rows : ∀ t, ∃ u r', rows t = u :: r' ∧ (∀ w ∈ rows t, u.1 ≤ w.1 ∧ w.1 < ncols) ∧
    ((rows t).map Prod.fst).Nodup

/-- The row space over the rationals. -/
def rowSpace (S : Set Row) : Submodule ℚ (Nat → ℚ) :=
  Submodule.span ℚ { v | ∃ r ∈ S, v = fun c => (r.map fun t : Nat × Int => if t.1 = c then (t.2 : ℚ) else 0).sum }

/-- What C74 asks of the rows returned, given by their leading columns: each is stored with increasing
columns, nonzero coefficients without common divisor, positive leading coefficient; no known pivot column and
no leading column of another row occurs in it; together with the known pivots they span the row space of the
matrix. -/
structure Result (ncl ncols : Nat) (known : Nat → Option Row) {n : Nat} (rows : Fin n → Row)
    (R : Nat → Option Row) : Prop where
  lead : ∀ c r, R c = some r → ∃ a r', r = (c, a) :: r' ∧ 0 < a
  sorted : ∀ c r, R c = some r → (r.map Prod.fst).Pairwise (· < ·)
  entries : ∀ c r, R c = some r → ∀ t ∈ r, ncl ≤ t.1 ∧ t.1 < ncols ∧ t.2 ≠ 0
  primitive : ∀ c r, R c = some r → ∀ d : Int, (∀ t ∈ r, d ∣ t.2) → d ∣ 1
  reduced : ∀ c r, R c = some r → ∀ t ∈ r, t.1 ≠ c → R t.1 = none
  space : rowSpace ({ r | ∃ c, known c = some r } ∪ { r | ∃ c, R c = some r }) =
    rowSpace ({ r | ∃ c, known c = some r } ∪ Set.range rows)

theorem rvec_apply (r : Row) : rvec r = fun c => (r.map fun t : Nat × Int => if t.1 = c then (t.2 : ℚ) else 0).sum := by
  induction r with
  | nil => rfl
  | cons t r ih =>
    funext c
    rw [rvec_cons, Pi.add_apply, ih, List.map_cons, List.sum_cons]
    congr 1
    by_cases h : t.1 = c
    · subst h; rw [Pi.single_eq_same, if_pos rfl]
    · rw [Pi.single_eq_of_ne (Ne.symm h), if_neg h]

theorem rowSpace_union (known R : Nat → Option Row) :
    rowSpace ({ r | ∃ c, known c = some r } ∪ { r | ∃ c, R c = some r }) = allSpan known ⊔ allSpan R := by
  unfold rowSpace allSpan
  rw [← Submodule.span_union]
  congr 1
  ext v
  simp only [← rvec_apply]
  constructor
  · rintro ⟨r, ⟨c, hc⟩ | ⟨c, hc⟩, rfl⟩
    · exact Or.inl ⟨c, r, hc, rfl⟩
    · exact Or.inr ⟨c, r, hc, rfl⟩
  · rintro (⟨c, r, hc, rfl⟩ | ⟨c, r, hc, rfl⟩)
    · exact ⟨r, Or.inl ⟨c, hc⟩, rfl⟩
    · exact ⟨r, Or.inr ⟨c, hc⟩, rfl⟩

theorem rowSpace_total (known : Nat → Option Row) {n : Nat} (rows : Fin n → Row) :
    rowSpace ({ r | ∃ c, known c = some r } ∪ Set.range rows) = total known rows := by
  unfold rowSpace total allSpan
  rw [← Submodule.span_union]
  congr 1
  ext v
  simp only [← rvec_apply]
  constructor
  · rintro ⟨r, ⟨c, hc⟩ | ⟨t, rfl⟩, rfl⟩
    · exact Or.inl ⟨c, r, hc, rfl⟩
    · exact Or.inr ⟨t, rfl⟩
  · rintro (⟨c, r, hc, rfl⟩ | ⟨t, rfl⟩)
    · exact ⟨r, Or.inl ⟨c, hc⟩, rfl⟩
    · exact ⟨rows t, Or.inr ⟨t, rfl⟩, rfl⟩

theorem MatrixOk.piv {ncl ncols : Nat} {known : Nat → Option Row} {n : Nat} {rows : Fin n → Row}
    (h : MatrixOk ncl ncols known rows) : ∀ i r, known i = some r → PivRow ncols i r := by
  intro i r hr
  have h1 := (h.dom i).mp (by rw [hr]; simp)
  have := h.le
  exact ⟨by omega, (h.known i r hr).1⟩

theorem MatrixOk.inRow {ncl ncols : Nat} {known : Nat → Option Row} {n : Nat} {rows : Fin n → Row}
    (h : MatrixOk ncl ncols known rows) (t : Fin n) : InRow ncols (rows t) := by
  obtain ⟨u, r', e, h1, h2⟩ := h.rows t
  refine ⟨by rw [e]; simp, h2, ?_⟩
  intro w hw
  have h3 := h1 w hw
  have h4 : headCol (rows t) = u.1 := by rw [e]; rfl
  rw [h4]; exact h3

theorem result_of {ncl ncols : Nat} {known : Nat → Option Row} {n : Nat} {rows : Fin n → Row}
    {R : Nat → Option Row} (h : Rref ncols R) (hs : allSpan known ⊔ allSpan R = total known rows)
    (hz : ∀ x ∈ allSpan R, ∀ c, c < ncl → x c = 0) : Result ncl ncols known rows R := by
  refine ⟨?_, fun c r hr => (h.row c r hr).1.sorted, ?_, ?_, h.red, ?_⟩
  · intro c r hr
    obtain ⟨a, b⟩ := h.row c r hr
    obtain ⟨t, r', rfl, hpos⟩ := a.prim.pos
    refine ⟨t.2, r', ?_, hpos⟩
    rw [← b]; rfl
  · intro c r hr t ht
    obtain ⟨a, b⟩ := h.row c r hr
    refine ⟨?_, a.ent t ht⟩
    by_contra hlt
    have h1 := hz (rvec r) (Submodule.subset_span ⟨c, r, hr, rfl⟩) t.1 (by omega)
    rw [rvec_mem a.sorted ht] at h1
    exact (a.ent t ht).2 (by exact_mod_cast h1)
  · intro c r hr d hd
    have h1 := (h.row c r hr).1.prim.gcd
    have h2 := dvd_gcdRow (r := r) (d := d) (m := 1) (fun t ht => by rw [one_mul]; exact hd t ht)
    rw [h1] at h2
    simpa using h2
  · rw [rowSpace_union, rowSpace_total, hs]

theorem Result.rref {ncl ncols : Nat} {known : Nat → Option Row} {n : Nat} {rows : Fin n → Row}
    {R : Nat → Option Row} (h : Result ncl ncols known rows R) : Rref ncols R := by
  refine ⟨?_, h.reduced⟩
  intro c r hr
  obtain ⟨a, r', he, hpos⟩ := h.lead c r hr
  refine ⟨⟨h.sorted c r hr, ⟨?_, (c, a), r', he, hpos⟩, fun t ht => (h.entries c r hr t ht).2⟩, by rw [he]; rfl⟩
  have h1 := h.primitive c r hr (gcdRow r) gcdRow_dvd
  have h2 : gcdRow r ∣ 1 := by exact_mod_cast h1
  exact Nat.dvd_one.mp h2

/-- C74: the linear algebra is exact, whatever the threads do: when all rows are finished, the
interreduction succeeds and gives rows as described by `Result`. -/
theorem C74_exact {ncl ncols : Nat} {known : Nat → Option Row} {n : Nat} {rows : Fin n → Row}
    (h : MatrixOk ncl ncols known rows) {m : Nat} {c : Conf n} (he : Exec ncols m (initConf known rows) c)
    (hfin : ∀ t, (c.th t).finished = true) :
    ∃ R, interreduce ncl ncols c.pivs = some R ∧ Result ncl ncols known rows R := by
  have hv : ∀ t, rvec (rows t) ∈ total known rows := fun t =>
    Submodule.mem_sup_right (Submodule.subset_span ⟨t, rfl⟩)
  obtain ⟨h1, -⟩ := exec_ok hv (init_ok h.piv h.inRow) he
  obtain ⟨R, e, a, b, d, -⟩ := interreduce_piv h.dom h1.1
  exact ⟨R, e, result_of a (by rw [b, final_span h1 hfin]) d⟩

/-- C74: the result is determined by the matrix: primitive rows over the integers with the properties of
`Result` are unique.  In particular threads, their number and their order have no influence. -/
theorem C74_unique {ncl ncols : Nat} {known : Nat → Option Row} {n : Nat} {rows : Fin n → Row}
    (h : MatrixOk ncl ncols known rows) {R R' : Nat → Option Row} (hR : Result ncl ncols known rows R)
    (hR' : Result ncl ncols known rows R') : R = R' := by
  have hz : ∀ {R : Nat → Option Row}, Result ncl ncols known rows R → ∀ x ∈ allSpan R, ∀ c, known c ≠ none → x c = 0 := by
    intro R hR x hx c hc
    refine span_vanish ?_ hx
    rintro v ⟨j, r, hr, rfl⟩
    refine rvec_zero r c ?_
    intro t ht he
    have h1 := (hR.entries j r hr t ht).1
    have h2 := (h.dom c).mp hc
    omega
  have hs : allSpan known ⊔ allSpan R = allSpan known ⊔ allSpan R' := by
    rw [← rowSpace_union, ← rowSpace_union, hR.space, hR'.space]
  exact hR.rref.unique hR'.rref (le_antisymm (span_determined h.piv (hz hR) (hz hR') hs)
    (span_determined h.piv (hz hR') (hz hR) hs.symm))

/-- C74: no thread gets stuck, divides by zero or writes outside of its row. -/
theorem C74_progress {ncl ncols : Nat} {known : Nat → Option Row} {n : Nat} {rows : Fin n → Row}
    (h : MatrixOk ncl ncols known rows) {m : Nat} {c : Conf n} (he : Exec ncols m (initConf known rows) c)
    (t : Fin n) (ht : (c.th t).finished = false) :
    ∃ x pivs', thStep ncols c.pivs (c.th t) = some (x, pivs') ∧
      Step ncols c { pivs := pivs', th := Function.update c.th t x } := by
  have hv : ∀ t, rvec (rows t) ∈ total known rows := fun t =>
    Submodule.mem_sup_right (Submodule.subset_span ⟨t, rfl⟩)
  obtain ⟨h1, -⟩ := exec_ok hv (init_ok h.piv h.inRow) he
  obtain ⟨x, p, e, -⟩ := thStep_ok (hv t) h1.1 (h1.2 t) ht
  exact ⟨x, p, e, Step.mk c t x p ht e⟩

/-- C74: all executions end; a bound for the number of steps. -/
theorem C74_terminates {ncl ncols : Nat} {known : Nat → Option Row} {n : Nat} {rows : Fin n → Row}
    (h : MatrixOk ncl ncols known rows) {m : Nat} {c : Conf n} (he : Exec ncols m (initConf known rows) c) :
    m ≤ n * ((ncols + 1) * (ncols + 3) + ncols + 2) := by
  have hv : ∀ t, rvec (rows t) ∈ total known rows := fun t =>
    Submodule.mem_sup_right (Submodule.subset_span ⟨t, rfl⟩)
  obtain ⟨-, h1⟩ := exec_ok hv (init_ok h.piv h.inRow) he
  have h2 : (∑ t, mu ncols ((initConf known rows).th t)) ≤
      ∑ _t : Fin n, ((ncols + 1) * (ncols + 3) + ncols + 2) := by
    apply Finset.sum_le_sum
    intro t _
    have : ncols - headCol (rows t) + 1 ≤ ncols + 1 := by omega
    have := Nat.mul_le_mul_right (ncols + 3) this
    simp only [initConf, mu, if_true]
    omega
  rw [Finset.sum_const, Finset.card_univ, Fintype.card_fin, smul_eq_mul] at h2
  omega

/-- C74: reducing the known pivots among themselves first (`-l 1`) does not change the result. -/
theorem C74_ab_first {ncl ncols : Nat} {known : Nat → Option Row} {n : Nat} {rows : Fin n → Row}
    (h : MatrixOk ncl ncols known rows) (hpos : 0 < ncl) :
    ∃ known', abFirst ncl ncl ncols known = some known' ∧
      (∀ m c, Exec ncols m (initConf known' rows) c → m ≤ n * ((ncols + 1) * (ncols + 3) + ncols + 2) ∧
        (∀ t, (c.th t).finished = false → ∃ c', Step ncols c c') ∧
        ((∀ t, (c.th t).finished = true) →
          ∃ R, interreduce ncl ncols c.pivs = some R ∧ Result ncl ncols known rows R)) := by
  have hnd : ∀ i r, known i = some r → (r.map Prod.fst).Nodup := fun i r hr => (h.known i r hr).2
  obtain ⟨p, e, a⟩ := abLoop_ok h.dom h.piv hnd h.le (ncl - 1) (by omega)
  have hdom : ∀ c, p c ≠ none ↔ c < ncl := fun c => by
    rw [← h.dom c]; exact not_congr (a.same c)
  have htot : total p rows = total known rows := by unfold total; rw [a.span]
  have hv : ∀ t, rvec (rows t) ∈ total p rows := fun t =>
    Submodule.mem_sup_right (Submodule.subset_span ⟨t, rfl⟩)
  refine ⟨p, by rw [abFirst, if_neg (by omega), e], ?_⟩
  intro m c he
  obtain ⟨h1, h2⟩ := exec_ok hv (init_ok a.row h.inRow) he
  refine ⟨?_, ?_, ?_⟩
  · have h3 : (∑ t, mu ncols ((initConf p rows).th t)) ≤
        ∑ _t : Fin n, ((ncols + 1) * (ncols + 3) + ncols + 2) := by
      apply Finset.sum_le_sum
      intro t _
      have : ncols - headCol (rows t) + 1 ≤ ncols + 1 := by omega
      have := Nat.mul_le_mul_right (ncols + 3) this
      simp only [initConf, mu, if_true]
      omega
    rw [Finset.sum_const, Finset.card_univ, Fintype.card_fin, smul_eq_mul] at h3
    omega
  · intro t ht
    obtain ⟨x, q, e', -⟩ := thStep_ok (hv t) h1.1 (h1.2 t) ht
    exact ⟨_, Step.mk c t x q ht e'⟩
  · intro hfin
    obtain ⟨R, e', b, d, f, -⟩ := interreduce_piv hdom h1.1
    refine ⟨R, e', result_of b ?_ f⟩
    rw [← htot, ← final_span h1 hfin, ← d, a.span]

/-- C74: without known pivots that variant reads outside of the array of pivots. -/
theorem C74_ab_first_empty (ncl ncols : Nat) (known : Nat → Option Row) : abFirst 0 ncl ncols known = none := rfl

/-! Example: known pivot `2 x + 3 y`, rows `3 x + y + z` and `x + 5 z`. -/

def exKnown : Nat → Option Row := fun c => if c = 0 then some [(0, 2), (1, 3)] else none
def exRows : Fin 2 → Row := fun t => if t = 0 then [(0, 3), (1, 1), (2, 1)] else [(0, 1), (2, 5)]

example : MatrixOk 1 3 exKnown exRows := by
  refine ⟨by decide, ?_, ?_, ?_⟩
  · intro c
    unfold exKnown
    by_cases hc : c = 0
    · simp [hc]
    · simp [hc]
  · intro c r hr
    unfold exKnown at hr
    by_cases hc : c = 0
    · subst hc
      rw [if_pos rfl] at hr
      rw [← Option.some.inj hr]
      exact ⟨⟨2, _, rfl, by decide, by decide⟩, by decide⟩
    · rw [if_neg hc] at hr; simp at hr
  · intro t
    fin_cases t
    · exact ⟨(0, 3), _, rfl, by decide, by decide⟩
    · exact ⟨(0, 1), _, rfl, by decide, by decide⟩

/-- `3 x + y + z` becomes `7 y - 2 z`. -/
example : (reduceRow 3 exKnown 0 (fill (exRows 0))).bind makePrim = some [(1, 7), (2, -2)] := by decide +kernel

/-! ## C75: final reduction of a basis over the rationals -/

/-- What C75 asks: the rows returned, given by their leading columns, are an echelon form of the matrix
without reducible entries. -/
structure Interreduced (ncols : Nat) (bs : Nat → List Int) (rows : Nat → Option (Nat × List Nat))
    (out : List Row) : Prop where
  ex : ∃ R : Nat → Option Row, out = (List.range ncols).filterMap R ∧ (∀ l, R l = none ↔ rows l = none) ∧
    (∀ l r, R l = some r → (∃ a r', r = (l, a) :: r' ∧ a ≠ 0) ∧ (r.map Prod.fst).Pairwise (· < ·) ∧
      ∀ t ∈ r, t.1 < ncols ∧ t.2 ≠ 0 ∧ (t.1 ≠ l → R t.1 = none)) ∧
    rowSpace { r | r ∈ out } = rowSpace { r | ∃ l b cs, rows l = some (b, cs) ∧ r = cs.zip (bs b) }

/-- Matrix of the final reduction: each row has as many columns as coefficients, the first column is the
smallest. -/
structure FinalMatrix (ncols : Nat) (bs : Nat → List Int) (rows : Nat → Option (Nat × List Nat)) : Prop where
  row : ∀ l b cs, rows l = some (b, cs) → cs.length = (bs b).length ∧ cs.Nodup ∧
    (∃ cs', cs = l :: cs' ∧ ∀ c ∈ cs', l < c ∧ c < ncols) ∧ (∃ a l', bs b = a :: l' ∧ a ≠ 0) ∧ l < ncols

theorem FinalMatrix.fin {ncols : Nat} {bs : Nat → List Int} {rows : Nat → Option (Nat × List Nat)}
    (h : FinalMatrix ncols bs rows)
    (hinj : ∀ l l' b cs cs', rows l = some (b, cs) → rows l' = some (b, cs') → l = l') : FinRows ncols bs rows := by
  refine ⟨?_, hinj⟩
  intro l b cs hr
  obtain ⟨-, hnd, ⟨cs', rfl, hcs⟩, ⟨a, l', hb, ha⟩, hl⟩ := h.row l b cs hr
  refine ⟨⟨hl, a, cs'.zip l', by rw [hb]; rfl, ha, ?_⟩, rfl, hnd⟩
  intro t ht
  exact hcs t.1 (List.of_mem_zip ht).1

/-- C75, for matrices in which no two rows use the same coefficient array.  The full claim, for all
matrices of the final reduction, is false: see `C75_shared`. -/
theorem C75_interreduced_partial {ncols : Nat} {bs : Nat → List Int} {rows : Nat → Option (Nat × List Nat)}
    (h : FinalMatrix ncols bs rows)
    (hinj : ∀ l l' b cs cs', rows l = some (b, cs) → rows l' = some (b, cs') → l = l') :
    ∃ out, finalReduce ncols bs rows = some out ∧ Interreduced ncols bs rows out := by
  obtain ⟨R, e, a, b, c⟩ := finalReduce_ok (h.fin hinj)
  refine ⟨_, e, ⟨R, rfl, b, ?_, ?_⟩⟩
  · intro l r hr
    obtain ⟨h1, h2, h3⟩ := a.row l r hr
    obtain ⟨x, r', he, hx, -⟩ := h1.head
    exact ⟨⟨x, r', he, hx⟩, h2, fun t ht => ⟨(h1.bound t ht).2, h3 t ht, fun hne => a.red l r hr t ht hne⟩⟩
  · have h1 : rowSpace { r | r ∈ (List.range ncols).filterMap R } = allSpan R := by
      unfold rowSpace allSpan
      congr 1
      ext v
      simp only [← rvec_apply]
      constructor
      · rintro ⟨r, hr, rfl⟩
        obtain ⟨l, -, hl⟩ := List.mem_filterMap.mp hr
        exact ⟨l, r, hl, rfl⟩
      · rintro ⟨l, r, hl, rfl⟩
        refine ⟨r, List.mem_filterMap.mpr ⟨l, ?_, hl⟩, rfl⟩
        exact List.mem_range.mpr (a.row l r hl).1.lt
    rw [h1, c]
    unfold rowSpace allSpan
    congr 1
    ext v
    simp only [← rvec_apply]
    constructor
    · rintro ⟨l, r, hr, rfl⟩
      rcases hl : rows l with _ | ⟨b', cs⟩
      · simp [rowAt, hl] at hr
      · refine ⟨r, ⟨l, b', cs, hl, ?_⟩, rfl⟩
        simp only [rowAt, hl, Option.map_some, Option.some.injEq] at hr
        exact hr.symm
    · rintro ⟨r, ⟨l, b', cs, hl, rfl⟩, rfl⟩
      exact ⟨l, _, by simp [rowAt, hl], rfl⟩

/-- C75 is false in general: whenever two rows use the same coefficient array, whatever else the matrix
contains, the final reduction ends in undefined behaviour (a `NULL` row is read). -/
theorem C75_shared {ncols : Nat} {bs : Nat → List Int} {rows : Nat → Option (Nat × List Nat)}
    {l l' b : Nat} {cs cs' : List Nat} (hne : l ≠ l') (hl : l < ncols) (hl' : l' < ncols)
    (ht : rows l = some (b, cs)) (ht' : rows l' = some (b, cs')) : finalReduce ncols bs rows = none := by
  rcases Nat.lt_or_gt_of_ne hne with h | h
  · exact finalReduce_shared h hl' ht ht'
  · exact finalReduce_shared h hl ht' ht

/-- C75: in the final reduction all elements of the basis are rows.  If the symbolic preprocessing adds one
reducer, that is a multiple of an element by a monomial other than one, which has the coefficient array of
that element, then the computation ends in undefined behaviour. -/
theorem C75_reducer {ncols : Nat} {bs : Nat → List Int} {rows : Nat → Option (Nat × List Nat)} {k : Nat}
    (pos : Fin k → Nat) (hpos : ∀ i, pos i < ncols ∧ ∃ cs, rows (pos i) = some (i.1, cs))
    {l : Nat} {i : Fin k} {cs : List Nat} (hl : l < ncols) (hr : rows l = some (i.1, cs)) (hne : l ≠ pos i) :
    finalReduce ncols bs rows = none := by
  obtain ⟨h1, cs', h2⟩ := hpos i
  exact C75_shared hne hl h1 hr h2

/-! The basis `x^2 + x*y`, `y - 1` (columns `x^2, x*y, x, y, 1`): `x*y` is reducible by `x*(y - 1)`. -/

def exBs : Nat → List Int := fun b => if b = 0 then [1, 1] else if b = 1 then [1, -1] else []
def exFin : Nat → Option (Nat × List Nat) := fun l =>
  if l = 0 then some (0, [0, 1]) else if l = 1 then some (1, [1, 2]) else if l = 3 then some (1, [3, 4]) else none

theorem C75_witness : FinalMatrix 5 exBs exFin ∧ finalReduce 5 exBs exFin = none := by
  refine ⟨⟨?_⟩, ?_⟩
  · intro l b cs h
    unfold exFin at h
    split_ifs at h with h0 h1 h3
    · obtain ⟨rfl, rfl⟩ := Prod.mk.inj (Option.some.inj h)
      subst h0
      exact ⟨rfl, by decide, ⟨_, rfl, by decide⟩, ⟨1, [1], rfl, by decide⟩, by decide⟩
    · obtain ⟨rfl, rfl⟩ := Prod.mk.inj (Option.some.inj h)
      subst h1
      exact ⟨rfl, by decide, ⟨_, rfl, by decide⟩, ⟨1, [-1], rfl, by decide⟩, by decide⟩
    · obtain ⟨rfl, rfl⟩ := Prod.mk.inj (Option.some.inj h)
      subst h3
      exact ⟨rfl, by decide, ⟨_, rfl, by decide⟩, ⟨1, [-1], rfl, by decide⟩, by decide⟩
  · exact C75_shared (l := 1) (l' := 3) (b := 1) (by decide) (by decide) (by decide) rfl rfl

/-- A matrix without reducers: `x^2 + y`, `2 y + 3` gives `2 x^2 - 3`, `2 y + 3`. -/
example : finalReduce 3 (fun b => if b = 0 then [1, 1] else [2, 3])
    (fun l => if l = 0 then some (0, [0, 1]) else if l = 1 then some (1, [1, 2]) else none) =
    some [[(0, 2), (2, -3)], [(1, 2), (2, 3)]] := by decide +kernel

end Verif.Props.LinAlgQq
