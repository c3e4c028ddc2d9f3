import Verif.Hilbert
import Verif.F4Sem
import Verif.MulMatrix
import Verif.LiftGB

/-!
Storing modular Groebner bases in the array of coefficients that is lifted, and the export of the lifted basis.
Source: src/msolve/hilbert.c 1296-1398, 3964-3978, src/msolve/lifting-gb.c 440-554, 588-600, 1503-1580.

Rows of exponents are vectors `Fin n → ℕ` as in `Verif.Hilbert`.  The exponents of the hash table have `e` variables more, those
of the elimination block, which come first.
-/
namespace Verif.LiftStore
open Verif.Hilbert Verif.Spec Verif.F4 Verif.Pairs

variable {n : ℕ}

/-! ### The enlarged monomial basis -/

/-- The loop of `monomial_basis_enlarged`, hilbert.c 1345-1393; `fuel` bounds the number of turns. -/
def enlargedLoop (lms : List (Fin n → ℕ)) (maxdeg : ℕ) : ℕ → ℕ → (ℕ → ℕ) → List (Fin n → ℕ) → Out n
  | fuel, deg, ind, basis =>
    match generateNew lms ind basis with
    | none => .overflow
    | some new =>
      if 0 < new.length ∧ deg ≤ maxdeg then
        match fuel with
        | 0 => .running
        | fuel + 1 =>
          let basis' := basis ++ new
          enlargedLoop lms maxdeg fuel (deg + 1)
            (updateIndices n ind (fun i => basis'.getD i 0) basis.length new.length) basis'
      else .done basis

/-- `monomial_basis_enlarged`, hilbert.c 1310-1398: without leading monomials a row before the array is read; the empty list
stands for the `NULL` pointer. -/
def enlarged (lms : List (Fin n → ℕ)) : Out n :=
  match lms.getLast? with
  | none => .overflow
  | some l =>
    if isDivisibleLexp lms (fun _ => 0) then .done []
    else enlargedLoop lms (Hilbert.tdeg l) (Hilbert.tdeg l + 1) 1 (fun _ => 0) [fun _ => 0]

theorem enlargedLoop_spec (hn : 1 ≤ n) (lms : List (Fin n → ℕ)) (maxdeg : ℕ) : ∀ (fuel d : ℕ) (ind : ℕ → ℕ)
    (basis : List (Fin n → ℕ)), Hilbert.Inv lms d ind basis → d ≤ maxdeg → maxdeg ≤ fuel + d →
    ((d = 0 ∧ basis.length = 1 ∧ ∀ k, ind k = 0) ∨ (1 ≤ d ∧ (basis.drop (ind 0)).length ≤ n * ind 0)) →
    ∃ L, enlargedLoop lms maxdeg fuel (d + 1) ind basis = .done L ∧ L.Pairwise Drl ∧
      ∀ m, m ∈ L ↔ Irred lms m ∧ Hilbert.tdeg m ≤ maxdeg := by
  intro fuel
  induction fuel with
  | zero =>
    intro d ind basis I h1 h2 hprev
    unfold enlargedLoop
    rw [generateNew_spec hn lms d ind basis I hprev]
    simp only
    rw [if_neg (by omega)]
    have : d = maxdeg := by omega
    subst this
    exact ⟨basis, rfl, I.sorted, I.mem⟩
  | succ fuel ih =>
    intro d ind basis I h1 h2 hprev
    unfold enlargedLoop
    rw [generateNew_spec hn lms d ind basis I hprev]
    simp only
    by_cases h0 : (cands lms ind basis n).length = 0
    · rw [if_neg (by omega)]
      refine ⟨basis, rfl, I.sorted, ?_⟩
      intro m
      rw [I.mem]
      refine ⟨fun h => ⟨h.1, by omega⟩, fun h => ⟨h.1, ?_⟩⟩
      by_contra hd
      exact basisLoop_spec.no_higher lms d ind basis I h0 m h.1 (by omega)
    · by_cases hdm : d = maxdeg
      · rw [if_neg (by omega)]
        subst hdm
        exact ⟨basis, rfl, I.sorted, I.mem⟩
      rw [if_pos (by omega)]
      have hne : cands lms ind basis n ≠ [] := fun h => h0 (by rw [h]; rfl)
      have I' := inv_step hn lms d ind basis I hne
      have hind0 : updateIndices n ind (fun i => (basis ++ cands lms ind basis n).getD i 0) basis.length
          (cands lms ind basis n).length 0 = basis.length := by
        have h1 := I'.ind_drop 0 (by omega)
        have hl := congrArg List.length h1
        rw [List.length_drop] at hl
        have h2 : ((basis ++ cands lms ind basis n).filter
            (fun m => decide (Hilbert.tdeg m = d + 1 ∧ ZeroFrom (n - 0) m))) = cands lms ind basis n := by
          rw [List.filter_append]
          have a1 : basis.filter (fun m => decide (Hilbert.tdeg m = d + 1 ∧ ZeroFrom (n - 0) m)) = [] := by
            rw [List.filter_eq_nil_iff]
            intro a ha hp
            rw [decide_eq_true_eq] at hp
            have := ((I.mem a).mp ha).2
            omega
          have a2 : (cands lms ind basis n).filter (fun m => decide (Hilbert.tdeg m = d + 1 ∧ ZeroFrom (n - 0) m)) =
              cands lms ind basis n := by
            rw [List.filter_eq_self]
            intro a ha
            rw [decide_eq_true_eq]
            obtain ⟨-, g2, g3⟩ := (mem_cands lms d ind basis I n (le_refl _) a).mp ha
            exact ⟨g2, g3⟩
          rw [a1, a2, List.nil_append]
        rw [h2, List.length_append] at hl
        have := I'.ind_le 0 (by omega)
        rw [List.length_append] at this
        omega
      exact ih (d + 1) _ _ I' (by omega) (by omega) (Or.inr ⟨by omega, by
        rw [hind0, List.drop_left]
        exact le_trans (cands_le_tries lms ind basis n) (tries_le ind basis n)⟩)

/-- The enlarged basis lists the irreducible monomials up to the degree of the last leading monomial. -/
theorem enlarged_spec (hn : 1 ≤ n) {lms : List (Fin n → ℕ)} {l : Fin n → ℕ} (hl : lms.getLast? = some l) :
    ∃ L, enlarged lms = .done L ∧ L.Pairwise Drl ∧ ∀ m, m ∈ L ↔ Irred lms m ∧ Hilbert.tdeg m ≤ Hilbert.tdeg l := by
  unfold enlarged
  rw [hl]
  simp only
  split
  · rename_i hd
    refine ⟨[], rfl, List.Pairwise.nil, ?_⟩
    intro m
    simp only [List.not_mem_nil, false_iff, not_and]
    intro hm
    have h0 : Irred lms (fun _ => 0) := irred_of_le hm (fun _ => Nat.zero_le _)
    rw [(isDivisibleLexp_iff _ _).mpr h0] at hd
    exact absurd hd (by simp)
  · rename_i hd
    have hirr : Irred lms (fun _ => 0) := (isDivisibleLexp_iff _ _).mp (by simpa using hd)
    exact enlargedLoop_spec hn lms _ _ 0 _ _ (inv_init lms hirr) (Nat.zero_le _) (by omega) (Or.inl ⟨rfl, rfl, fun _ => rfl⟩)

/-! ### The lengths -/

/-- `grevlex_is_less_than`, lifting-gb.c 440-460. -/
def grevlexLess (m1 m2 : Fin n → ℕ) : Bool :=
  if Hilbert.tdeg m1 < Hilbert.tdeg m2 then true
  else if Hilbert.tdeg m1 > Hilbert.tdeg m2 then false
  else (List.finRange n).all fun i => !decide (m1 i < m2 i)

/-- `compute_length`, lifting-gb.c 462-471, with `i` entries left. -/
def computeLength (mon : Fin n → ℕ) (basis : List (Fin n → ℕ)) : ℕ → ℕ
  | 0 => 0
  | i + 1 => if !grevlexLess mon (basis.getD i 0) then i + 1 else computeLength mon basis i

/-- An entry of `array_of_lengths`, lifting-gb.c 483-490. -/
def lenOf (mon : Fin n → ℕ) (basis : List (Fin n → ℕ)) : ℕ := computeLength mon basis basis.length

/-- Despite its name, the comparison tells whether the degree is smaller or the monomials are equal. -/
theorem grevlexLess_iff (m1 m2 : Fin n → ℕ) : grevlexLess m1 m2 = true ↔ Hilbert.tdeg m1 < Hilbert.tdeg m2 ∨ m1 = m2 := by
  unfold grevlexLess
  by_cases h1 : Hilbert.tdeg m1 < Hilbert.tdeg m2
  · simp [h1]
  · rw [if_neg h1]
    by_cases h2 : Hilbert.tdeg m1 > Hilbert.tdeg m2
    · rw [if_pos h2]
      simp only [Bool.false_eq_true, false_iff, not_or]
      refine ⟨h1, ?_⟩
      rintro rfl
      omega
    · rw [if_neg h2]
      have he : Hilbert.tdeg m1 = Hilbert.tdeg m2 := by omega
      simp only [List.all_eq_true, List.mem_finRange, forall_const, Bool.not_eq_true', decide_eq_false_iff_not, not_lt]
      constructor
      · intro h
        right
        funext i
        exact ((Finset.sum_eq_sum_iff_of_le (fun i _ => h i)).mp he.symm i (Finset.mem_univ i)).symm
      · rintro (h | rfl)
        · omega
        · exact fun _ => le_rfl

theorem computeLength_spec (mon : Fin n → ℕ) (basis : List (Fin n → ℕ)) (hs : basis.Pairwise Drl) (hm : mon ∉ basis) :
    ∀ i ≤ basis.length, computeLength mon basis i ≤ i ∧ ∀ j (_ : j < i), ∀ h : j < basis.length,
      (j < computeLength mon basis i ↔ Hilbert.tdeg basis[j] ≤ Hilbert.tdeg mon)
  | 0, _ => ⟨le_rfl, fun j hj => absurd hj (by omega)⟩
  | i + 1, hi => by
    obtain ⟨h1, h2⟩ := computeLength_spec mon basis hs hm i (by omega)
    have hg : basis.getD i 0 = basis[i] := by
      rw [List.getD_eq_getElem?_getD, List.getElem?_eq_getElem (by omega)]; rfl
    have hle : ∀ j (_ : j ≤ i), ∀ h : j < basis.length, Hilbert.tdeg basis[j] ≤ Hilbert.tdeg basis[i] := by
      intro j hj h
      rcases Nat.lt_or_eq_of_le hj with hj | rfl
      · exact tdeg_le_of_drl (List.pairwise_iff_getElem.mp hs j i h (by omega) hj)
      · exact le_rfl
    unfold computeLength
    rw [hg]
    by_cases hc : grevlexLess mon basis[i] = true
    · rw [hc]
      simp only [Bool.not_true, Bool.false_eq_true, if_false]
      refine ⟨by omega, ?_⟩
      intro j hj h
      rcases Nat.lt_succ_iff_lt_or_eq.mp hj with hj | rfl
      · exact h2 j hj h
      · rcases (grevlexLess_iff _ _).mp hc with h3 | h3
        · constructor
          · intro h4; omega
          · intro h4; omega
        · exact absurd (h3 ▸ List.getElem_mem h) hm
    · have hc' : grevlexLess mon basis[i] = false := by simpa using hc
      rw [hc']
      simp only [Bool.not_false, if_true]
      refine ⟨le_rfl, ?_⟩
      intro j hj h
      have h3 : ¬ Hilbert.tdeg mon < Hilbert.tdeg basis[i] := fun h => hc ((grevlexLess_iff _ _).mpr (Or.inl h))
      have := hle j (by omega) h
      constructor
      · intro _; omega
      · intro _; exact hj

/-- The slots of a polynomial are the monomials of the basis of degree at most that of its leading monomial. -/
theorem lenOf_spec {mon : Fin n → ℕ} {basis : List (Fin n → ℕ)} (hs : basis.Pairwise Drl) (hm : mon ∉ basis) :
    lenOf mon basis ≤ basis.length ∧ ∀ j (h : j < basis.length),
      (j < lenOf mon basis ↔ Hilbert.tdeg basis[j] ≤ Hilbert.tdeg mon) := by
  obtain ⟨h1, h2⟩ := computeLength_spec mon basis hs hm basis.length le_rfl
  exact ⟨h1, fun j h => h2 j h h⟩

/-! ### Storing -/

/-- `is_equal_exponent_elim`, hilbert.c 554-562 (the last comparison is written separately there; at least one variable). -/
def eqElim (e : ℕ) (m : Fin (e + n) → ℕ) (b : Fin n → ℕ) : Bool :=
  (List.finRange n).all fun i => decide (m (Fin.natAdd e i) = b i)

/-- The loop `while(!is_equal_exponent_elim(...)) bc--`, lifting-gb.c 539-541, with the entries below `b` left: `none` is an
access before the array. -/
def findSlot (e : ℕ) (basis : List (Fin n → ℕ)) (m : Fin (e + n) → ℕ) : ℕ → Option ℕ
  | 0 => none
  | b + 1 => if eqElim e m (basis.getD b 0) then some b else findSlot e basis m b

/-- The loop over the terms of a polynomial behind the leading one, lifting-gb.c 534-545; `b` is `bc + 1`. -/
def placeTerms (e : ℕ) (basis : List (Fin n → ℕ)) : Poly (e + n) → ℕ → (ℕ → ℕ) → Option (ℕ → ℕ)
  | [], _, cf => some cf
  | t :: ts, b, cf =>
    match findSlot e basis t.1 b with
    | none => none
    | some s => placeTerms e basis ts s (Function.update cf s t.2)

/-- The loop over the polynomials in `modpgbs_set`, lifting-gb.c 522-547: the entries of the new prime are zero before
(`calloc` and `gb_modpoly_realloc`); a basis with fewer elements than expected or without an element is an access outside of an
array. -/
def storeAll (e : ℕ) (basis : List (Fin n → ℕ)) (lens : ℕ → ℕ) : ℕ → List (Poly (e + n)) → Option (List (ℕ → ℕ))
  | _, [] => some []
  | k, f :: fs =>
    match f with
    | [] => none
    | _ :: ts =>
      match placeTerms e basis ts (lens k) (fun _ => 0) with
      | none => none
      | some c => (storeAll e basis lens (k + 1) fs).map fun l => c :: l

/-- `equal_staircase`, hilbert.c 3964-3978. -/
def equalStaircase (l l' : List (Fin n → ℕ)) : Bool :=
  if l.length ≠ l'.length then false
  else (List.range l.length).all fun i => (List.finRange n).all fun j => decide (l.getD i 0 j = l'.getD i 0 j)

theorem equalStaircase_iff (l l' : List (Fin n → ℕ)) : equalStaircase l l' = true ↔ l = l' := by
  unfold equalStaircase
  by_cases h : l.length ≠ l'.length
  · rw [if_pos h]
    simp only [Bool.false_eq_true, false_iff]
    rintro rfl
    exact h rfl
  · rw [if_neg h]
    simp only [List.all_eq_true, List.mem_range, List.mem_finRange, forall_const, decide_eq_true_eq]
    have hl : l.length = l'.length := by simpa using h
    constructor
    · intro h1
      apply List.ext_getElem hl
      intro i h2 h3
      funext j
      have := h1 i h2 j
      rw [List.getD_eq_getElem?_getD, List.getD_eq_getElem?_getD, List.getElem?_eq_getElem h2, List.getElem?_eq_getElem h3] at this
      exact this
    · rintro rfl
      exact fun _ _ _ => rfl

/-- A monomial without the variables of the elimination block. -/
def embed (e : ℕ) (m : Fin n → ℕ) : Fin (e + n) → ℕ := Fin.append (fun _ => 0) m

theorem eqElim_embed (e : ℕ) (m b : Fin n → ℕ) : eqElim e (embed e m) b = true ↔ m = b := by
  unfold eqElim embed
  simp only [List.all_eq_true, List.mem_finRange, forall_const, decide_eq_true_eq, Fin.append_right]
  exact ⟨fun h => funext h, fun h i => by rw [h]⟩

theorem findSlot_spec (e : ℕ) {basis : List (Fin n → ℕ)} (hnd : basis.Nodup) {s : ℕ} (hs : s < basis.length) :
    ∀ b, s < b → b ≤ basis.length → findSlot e basis (embed e basis[s]) b = some s
  | 0, h, _ => absurd h (by omega)
  | b + 1, h, hb => by
    have hg : basis.getD b 0 = basis[b] := by
      rw [List.getD_eq_getElem?_getD, List.getElem?_eq_getElem (by omega)]; rfl
    unfold findSlot
    rw [hg]
    by_cases hsb : s = b
    · subst hsb
      rw [if_pos ((eqElim_embed _ _ _).mpr rfl)]
    · rw [if_neg (fun hc => hsb ((List.Nodup.getElem_inj_iff hnd).mp ((eqElim_embed _ _ _).mp hc)))]
      exact findSlot_spec e hnd hs b (by omega) (by omega)

/-- A polynomial in the variables behind the elimination block, as the F4 computation delivers it. -/
def embedPoly (e : ℕ) (f : Poly n) : Poly (e + n) := f.map fun t => (embed e t.1, t.2)

/-- All terms find their slots: the entry of a slot is the coefficient of its monomial. -/
theorem placeTerms_spec (e : ℕ) {basis : List (Fin n → ℕ)} (hs : basis.Pairwise Drl) (hnd : basis.Nodup) : ∀ (ts : Poly n) (b : ℕ)
    (cf : ℕ → ℕ), b ≤ basis.length → (ts.map Prod.fst).Pairwise (fun u v => Drl v u) →
    (∀ t ∈ ts, ∃ s, ∃ h : s < basis.length, s < b ∧ basis[s] = t.1) →
    ∃ cf', placeTerms e basis (embedPoly e ts) b cf = some cf' ∧
      ∀ s (h : s < basis.length), (∀ t ∈ ts, t.1 = basis[s] → cf' s = t.2) ∧ ((∀ t ∈ ts, t.1 ≠ basis[s]) → cf' s = cf s)
  | [], b, cf, _, _, _ => ⟨cf, rfl, fun s _ => ⟨by simp, fun _ => rfl⟩⟩
  | t :: ts, b, cf, hb, hsort, hmem => by
    obtain ⟨s, hsl, hsb, he⟩ := hmem t List.mem_cons_self
    have hf := findSlot_spec e hnd hsl b hsb hb
    rw [he] at hf
    rw [List.map_cons, List.pairwise_cons] at hsort
    have hlow : ∀ u ∈ ts, ∃ s', ∃ h : s' < basis.length, s' < s ∧ basis[s'] = u.1 := by
      intro u hu
      obtain ⟨s', h1, h2, h3⟩ := hmem u (List.mem_cons_of_mem _ hu)
      refine ⟨s', h1, ?_, h3⟩
      have hlt := hsort.1 u.1 (List.mem_map_of_mem hu)
      rw [← he, ← h3] at hlt
      by_contra hle
      rcases Nat.lt_or_eq_of_le (show s ≤ s' by omega) with h | h
      · have h4 := List.pairwise_iff_getElem.mp hs s s' hsl h1 h
        exact Verif.Orders.drl_admissible.irrefl _ (Verif.Orders.drl_admissible.trans _ _ _ hlt h4)
      · subst h
        exact Verif.Orders.drl_admissible.irrefl _ hlt
    obtain ⟨cf', e', h'⟩ := placeTerms_spec e hs hnd ts s (Function.update cf s t.2) (by omega) hsort.2 hlow
    have hun : embedPoly e (t :: ts) = (embed e t.1, t.2) :: embedPoly e ts := rfl
    refine ⟨cf', ?_, ?_⟩
    · rw [hun]
      unfold placeTerms
      simp only [hf]
      exact e'
    · intro r hr
      obtain ⟨g1, g2⟩ := h' r hr
      have hsn : ∀ u ∈ ts, u.1 ≠ basis[s] := by
        intro u hu heq
        have hlt := hsort.1 u.1 (List.mem_map_of_mem hu)
        rw [heq, he] at hlt
        exact Verif.Orders.drl_admissible.irrefl _ hlt
      constructor
      · intro u hu heq
        rcases List.mem_cons.mp hu with rfl | hu
        · rw [← he] at heq
          have : s = r := (List.Nodup.getElem_inj_iff hnd).mp heq
          subst this
          rw [g2 hsn, Function.update_self]
        · exact g1 u hu heq
      · intro hno
        rw [g2 (fun u hu => hno u (List.mem_cons_of_mem _ hu))]
        apply Function.update_of_ne
        rintro rfl
        exact hno t List.mem_cons_self he.symm

theorem drl_nodup {basis : List (Fin n → ℕ)} (hs : basis.Pairwise Drl) : basis.Nodup := by
  refine hs.imp ?_
  rintro a b h rfl
  exact Verif.Orders.drl_admissible.irrefl _ h

/-- The polynomial given by the coefficients of the first `L` slots. -/
noncomputable def slotPoly {R : Type*} [CommSemiring R] (mb : List (Fin n → ℕ)) (L : ℕ) (c : ℕ → R) : MvPolynomial (Fin n) R :=
  ∑ l ∈ Finset.range L, MvPolynomial.monomial (fs (mb.getD l 0)) (c l)

theorem slotPoly_coeff {R : Type*} [CommSemiring R] {mb : List (Fin n → ℕ)} (hnd : mb.Nodup) {L : ℕ} (hL : L ≤ mb.length)
    (c : ℕ → R) {s : ℕ} (hs : s < mb.length) : (slotPoly mb L c).coeff (fs mb[s]) = if s < L then c s else 0 := by
  unfold slotPoly
  rw [MvPolynomial.coeff_sum]
  have hg : ∀ l (_ : l < L), mb.getD l 0 = mb[l]'(by omega) := by
    intro l hl
    rw [List.getD_eq_getElem?_getD, List.getElem?_eq_getElem (by omega)]; rfl
  split
  · rename_i hsL
    rw [Finset.sum_eq_single_of_mem s (Finset.mem_range.mpr hsL)]
    · rw [hg s hsL, MvPolynomial.coeff_monomial, if_pos rfl]
    · intro l hl hne
      rw [hg l (Finset.mem_range.mp hl), MvPolynomial.coeff_monomial, if_neg]
      intro he
      exact hne ((List.Nodup.getElem_inj_iff hnd).mp (fs_inj.mp he))
  · rename_i hsL
    apply Finset.sum_eq_zero
    intro l hl
    have hl := Finset.mem_range.mp hl
    rw [hg l hl, MvPolynomial.coeff_monomial, if_neg]
    intro he
    have := (List.Nodup.getElem_inj_iff hnd).mp (fs_inj.mp he)
    omega

theorem slotPoly_coeff_zero {R : Type*} [CommSemiring R] {mb : List (Fin n → ℕ)} {L : ℕ} (hL : L ≤ mb.length)
    (c : ℕ → R) {u : Fin n → ℕ} (hu : u ∉ mb) : (slotPoly mb L c).coeff (fs u) = 0 := by
  unfold slotPoly
  rw [MvPolynomial.coeff_sum]
  apply Finset.sum_eq_zero
  intro l hl
  have hl := Finset.mem_range.mp hl
  rw [List.getD_eq_getElem?_getD, List.getElem?_eq_getElem (by omega), Option.getD_some, MvPolynomial.coeff_monomial, if_neg]
  intro he
  exact hu (fs_inj.mp he ▸ List.getElem_mem _)

/-- One polynomial: it is its leading monomial plus the polynomial of the stored coefficients. -/
theorem storeOne (e : ℕ) {p : ℕ} {mb : List (Fin n → ℕ)} (hs : mb.Pairwise Drl) {f : Poly n} (hf : PolyOk .drl p f)
    (hlm : F4.lead f ∉ mb) {ts : Poly n} (hts : f = (F4.lead f, 1) :: ts) (hmem : ∀ t ∈ ts, t.1 ∈ mb) :
    ∃ c, placeTerms e mb (embedPoly e ts) (lenOf (F4.lead f) mb) (fun _ => 0) = some c ∧
      toMv p f = MvPolynomial.monomial (fs (F4.lead f)) 1 + slotPoly mb (lenOf (F4.lead f) mb) (fun l => ((c l : ℕ) : ZMod p)) ∧
      ∀ l, l < mb.length → c l < p := by
  have hnd := drl_nodup hs
  obtain ⟨hL, hlen⟩ := lenOf_spec hs hlm
  have hsort := hf.sorted
  rw [hts, List.map_cons, List.pairwise_cons] at hsort
  have hslot : ∀ t ∈ ts, ∃ s, ∃ h : s < mb.length, s < lenOf (F4.lead f) mb ∧ mb[s] = t.1 := by
    intro t ht
    obtain ⟨s, h, he⟩ := List.getElem_of_mem (hmem t ht)
    refine ⟨s, h, (hlen s h).mpr ?_, he⟩
    rw [he]
    exact tdeg_le_of_drl (hsort.1 t.1 (List.mem_map_of_mem ht))
  obtain ⟨c, e1, hc⟩ := placeTerms_spec e hs hnd ts (lenOf (F4.lead f) mb) (fun _ => 0) hL hsort.2 hslot
  refine ⟨c, e1, ?_, ?_⟩
  · conv_lhs => rw [hts]
    rw [toMv_cons, Nat.cast_one]
    congr 1
    ext m
    obtain ⟨u, rfl⟩ := fs_surj m
    by_cases hu : u ∈ mb
    · obtain ⟨s, h, rfl⟩ := List.getElem_of_mem hu
      rw [slotPoly_coeff hnd hL _ h]
      by_cases hex : ∃ t ∈ ts, t.1 = mb[s]
      · obtain ⟨t, ht, he⟩ := hex
        obtain ⟨s', h', hs', he'⟩ := hslot t ht
        have : s' = s := (List.Nodup.getElem_inj_iff hnd).mp (he'.trans he)
        subst this
        rw [if_pos hs', (hc s' h).1 t ht he, ← he]
        exact toMv_coeff p ts hsort.2 t ht
      · push Not at hex
        rw [toMv_coeff_zero p ts _ hex, (hc s h).2 hex]
        simp
    · rw [slotPoly_coeff_zero hL _ hu, toMv_coeff_zero]
      intro t ht he
      exact hu (he ▸ hmem t ht)
  · intro l hl
    by_cases hex : ∃ t ∈ ts, t.1 = mb[l]
    · obtain ⟨t, ht, he⟩ := hex
      rw [(hc l hl).1 t ht he]
      exact (hf.coeff t (by rw [hts]; exact List.mem_cons_of_mem _ ht)).2
    · push Not at hex
      rw [(hc l hl).2 hex]
      have := (hf.coeff _ hf.lead_mem).2
      simp only at this ⊢
      omega

/-- The lengths of all polynomials, `array_of_lengths`, lifting-gb.c 483-490. -/
def lensOf (lms mb : List (Fin n → ℕ)) (k : ℕ) : ℕ := lenOf (lms.getD k 0) mb

/-- The list of polynomials from index `k` on. -/
theorem storeAll_spec (e : ℕ) {p : ℕ} {mb lms : List (Fin n → ℕ)} (hs : mb.Pairwise Drl) : ∀ (G : List (Poly n)) (k : ℕ),
    (∀ i f, G[i]? = some f → lms.getD (k + i) 0 = F4.lead f) → (∀ f ∈ G, PolyOk .drl p f) → (∀ f ∈ G, F4.lead f ∉ mb) →
    (∀ f ∈ G, ∀ ts, f = (F4.lead f, 1) :: ts → ∀ t ∈ ts, t.1 ∈ mb) →
    ∃ cs, storeAll e mb (lensOf lms mb) k (G.map (embedPoly e)) = some cs ∧ cs.length = G.length ∧
      ∀ (i : ℕ) (f : Poly n) (c : ℕ → ℕ), G[i]? = some f → cs[i]? = some c →
        toMv p f = MvPolynomial.monomial (fs (F4.lead f)) 1 +
          slotPoly mb (lensOf lms mb (k + i)) (fun l => ((c l : ℕ) : ZMod p)) ∧ ∀ l, l < mb.length → c l < p
  | [], k, _, _, _, _ => ⟨[], rfl, rfl, by simp⟩
  | f :: G, k, hl, hok, hlm, hmem => by
    obtain ⟨cs, e1, e2, e3⟩ := storeAll_spec e (p := p) (lms := lms) hs G (k + 1)
      (fun i g hg => by rw [show k + 1 + i = k + (i + 1) by omega]; exact hl (i + 1) g (by simpa using hg))
      (fun g hg => hok g (List.mem_cons_of_mem _ hg)) (fun g hg => hlm g (List.mem_cons_of_mem _ hg))
      (fun g hg => hmem g (List.mem_cons_of_mem _ hg))
    have hf := hok f List.mem_cons_self
    obtain ⟨ts, hts⟩ := hf.head
    obtain ⟨c, c1, c2⟩ := storeOne e hs hf (hlm f List.mem_cons_self) hts (hmem f List.mem_cons_self ts hts)
    have hk : lensOf lms mb k = lenOf (F4.lead f) mb := by
      have := hl 0 f rfl
      rw [add_zero] at this
      unfold lensOf
      rw [this]
    refine ⟨c :: cs, ?_, by simp [e2], ?_⟩
    · have hun : (f :: G).map (embedPoly e) = ((embed e (F4.lead f), 1) :: embedPoly e ts) :: G.map (embedPoly e) := by
        rw [List.map_cons]
        congr 1
        conv_lhs => rw [hts]
        rfl
      rw [hun]
      unfold storeAll
      simp only [hk, c1, e1, Option.map_some]
    · intro i g c' hg hc'
      cases i with
      | zero =>
        simp only [List.getElem?_cons_zero, Option.some.injEq] at hg hc'
        subst hg hc'
        rw [add_zero, hk]
        exact c2
      | succ i =>
        rw [show k + (i + 1) = k + 1 + i by omega]
        exact e3 i g c' (by simpa using hg) (by simpa using hc')

/-! ### The events of the loop -/

/-- What `gb_modular_trace_application` (lifting-gb.c 757-789) does with the basis computed modulo a prime: `G` are the elements
without variables of the elimination block, `lms` the expected leading monomials. -/
def eventOf (e : ℕ) (lms mb : List (Fin n → ℕ)) (p : ℕ) (G : List (Poly (e + n))) : Option LiftGB.Ev :=
  if G.length ≠ lms.length then some .skip
  else if !equalStaircase (G.map fun f => fun i => F4.lead f (Fin.natAdd e i)) lms then some .bad
  else (storeAll e mb (lensOf lms mb) 0 G).map fun cs => .image p fun k l => cs.getD k (fun _ => 0) l

/-- All events of the loop: for each prime the computation fails (lifting-gb.c 751-754) or delivers a basis; `keep` selects the
elements without variables of the elimination block. -/
def eventsOf (e : ℕ) (lms mb : List (Fin n → ℕ)) (keep : List (Poly (e + n)) → List (Poly (e + n))) :
    List ((ℕ × Option (List (Poly (e + n)))) × Bool) → Option (List (LiftGB.Ev × Bool))
  | [] => some []
  | ((_, none), slow) :: gs => (eventsOf e lms mb keep gs).map fun es => (.bad, slow) :: es
  | ((p, some G), slow) :: gs =>
    (eventOf e lms mb p (keep G)).bind fun ev => (eventsOf e lms mb keep gs).map fun es => (ev, slow) :: es

/-! ### Export -/

/-- The terms written for a polynomial, lifting-gb.c 1552-1573: the leading monomial, then the slots from the last to the first
with non zero coefficient; the first variables are those of the elimination block, with exponents zero. -/
def exportTerms (e : ℕ) (ldm : Fin n → ℕ) (mb : List (Fin n → ℕ)) (P : LiftGB.MPoly) : List ((Fin (e + n) → ℕ) × ℤ) :=
  (embed e ldm, P.lm) ::
    ((List.range P.len).reverse.filter fun i => decide (P.qn i ≠ 0)).map fun i => (embed e (mb.getD i 0), P.qn i)

/-- The first pass, lifting-gb.c 1529-1543: the number of terms of a polynomial. -/
def exportLen (P : LiftGB.MPoly) : ℕ := (List.range P.len).reverse.foldl (fun c j => if P.qn j ≠ 0 then c + 1 else c) 0 + 1

/-- Writing terms one after the other into arrays with room for `cap` terms. -/
def pushTerms {α : Type*} (cap : ℕ) : List α → List α → Option (List α)
  | [], acc => some acc
  | t :: ts, acc => if acc.length < cap then pushTerms cap ts (acc ++ [t]) else none

/-- The second pass over the polynomials `k, k + 1, …`, lifting-gb.c 1551-1574. -/
def exportLoop (e : ℕ) (ldm mb : List (Fin n → ℕ)) (polys : ℕ → LiftGB.MPoly) (cap : ℕ) : List ℕ → List ((Fin (e + n) → ℕ) × ℤ) →
    Option (List ((Fin (e + n) → ℕ) × ℤ))
  | [], acc => some acc
  | k :: ks, acc => (pushTerms cap (exportTerms e (ldm.getD k 0) mb (polys k)) acc).bind (exportLoop e ldm mb polys cap ks)

/-- `export_results_from_groebner_qq`, lifting-gb.c 1503-1580: the lengths and the terms. -/
def exportQq (e : ℕ) (ldm mb : List (Fin n → ℕ)) (npol : ℕ) (polys : ℕ → LiftGB.MPoly) :
    Option (List ℕ × List ((Fin (e + n) → ℕ) × ℤ)) :=
  let lens := (List.range npol).map fun k => exportLen (polys k)
  (exportLoop e ldm mb polys lens.sum (List.range npol) []).map fun t => (lens, t)

theorem pushTerms_spec {α : Type*} (cap : ℕ) : ∀ (ts acc : List α), acc.length + ts.length ≤ cap →
    pushTerms cap ts acc = some (acc ++ ts)
  | [], acc, _ => by simp [pushTerms]
  | t :: ts, acc, h => by
    unfold pushTerms
    rw [List.length_cons] at h
    rw [if_pos (by omega), pushTerms_spec cap ts (acc ++ [t]) (by simp; omega)]
    simp

theorem exportLen_eq (e : ℕ) (ldm : Fin n → ℕ) (mb : List (Fin n → ℕ)) (P : LiftGB.MPoly) :
    exportLen P = (exportTerms e ldm mb P).length := by
  have key : ∀ (l : List ℕ) (c : ℕ), l.foldl (fun c j => if P.qn j ≠ 0 then c + 1 else c) c =
      c + (l.filter fun i => decide (P.qn i ≠ 0)).length := by
    intro l
    induction l with
    | nil => simp
    | cons j l ih =>
      intro c
      rw [List.foldl_cons, ih]
      by_cases h : P.qn j = 0
      · simp [h]
      · simp [h]; omega
  unfold exportLen exportTerms
  rw [key]
  simp

theorem exportLoop_spec (e : ℕ) (ldm mb : List (Fin n → ℕ)) (polys : ℕ → LiftGB.MPoly) (cap : ℕ) : ∀ (ks : List ℕ)
    (acc : List ((Fin (e + n) → ℕ) × ℤ)), acc.length + (ks.map fun k => exportLen (polys k)).sum ≤ cap →
    exportLoop e ldm mb polys cap ks acc = some (acc ++ (ks.map fun k => exportTerms e (ldm.getD k 0) mb (polys k)).flatten)
  | [], acc, _ => by simp [exportLoop]
  | k :: ks, acc, h => by
    rw [List.map_cons, List.sum_cons, exportLen_eq e (ldm.getD k 0) mb] at h
    unfold exportLoop
    rw [pushTerms_spec cap _ _ (by omega), Option.bind_some, exportLoop_spec e ldm mb polys cap ks _ (by
      rw [List.length_append]; omega)]
    simp

/-- The arrays hold the terms of the polynomials, one polynomial after the other. -/
theorem exportQq_spec (e : ℕ) (ldm mb : List (Fin n → ℕ)) (npol : ℕ) (polys : ℕ → LiftGB.MPoly) :
    exportQq e ldm mb npol polys = some
      ((List.range npol).map (fun k => (exportTerms e (ldm.getD k 0) mb (polys k)).length),
       ((List.range npol).map fun k => exportTerms e (ldm.getD k 0) mb (polys k)).flatten) := by
  unfold exportQq
  dsimp only
  rw [exportLoop_spec _ _ _ _ _ _ _ (by simp)]
  simp only [Option.map_some, List.nil_append, Option.some.injEq, Prod.mk.injEq, and_true]
  exact List.map_congr_left fun k _ => exportLen_eq e _ mb _

/-! ### Exported terms as polynomials -/

open MvPolynomial

theorem fs_embed (e : ℕ) (m : Fin n → ℕ) : fs (embed e m) = (fs m).mapDomain (Fin.natAdd e) := by
  ext i
  refine Fin.addCases (fun j => ?_) (fun j => ?_) i
  · rw [Finsupp.mapDomain_of_notMem_range]
    · simp [embed]
    · rintro ⟨k, hk⟩
      have := congrArg Fin.val hk
      simp at this
      omega
  · rw [Finsupp.mapDomain_apply (Fin.natAdd_injective n e)]
    simp [embed]

/-- The polynomial of a list of terms. -/
noncomputable def termsMv {m : ℕ} (t : List ((Fin m → ℕ) × ℤ)) : MvPolynomial (Fin m) ℤ :=
  (t.map fun t => monomial (fs t.1) t.2).sum

theorem toMv_embed (e p : ℕ) (f : Poly n) : toMv p (embedPoly e f) = rename (Fin.natAdd e) (toMv p f) := by
  induction f with
  | nil => simp [embedPoly, toMv_nil]
  | cons t f ih =>
    have : embedPoly e (t :: f) = (embed e t.1, t.2) :: embedPoly e f := rfl
    rw [this, toMv_cons, toMv_cons, map_add, ih, rename_monomial, fs_embed]

theorem exportTerms_mv (e : ℕ) (ldm : Fin n → ℕ) (mb : List (Fin n → ℕ)) (P : LiftGB.MPoly) :
    termsMv (exportTerms e ldm mb P) = rename (Fin.natAdd e) (monomial (fs ldm) P.lm + slotPoly mb P.len P.qn) := by
  have key : ∀ L : ℕ, (((List.range L).reverse.filter fun i => decide (P.qn i ≠ 0)).map fun i =>
      monomial (fs (embed e (mb.getD i 0))) (P.qn i)).sum = rename (Fin.natAdd e) (slotPoly mb L P.qn) := by
    intro L
    induction L with
    | zero => simp [slotPoly]
    | succ L ih =>
      have hsp : slotPoly mb (L + 1) P.qn = slotPoly mb L P.qn + monomial (fs (mb.getD L 0)) (P.qn L) := by
        unfold slotPoly
        rw [Finset.sum_range_succ]
      rw [hsp, map_add, rename_monomial, ← fs_embed, List.range_succ, List.reverse_append]
      by_cases h : P.qn L = 0
      · simp only [List.reverse_cons, List.reverse_nil, List.nil_append, List.cons_append, List.filter_cons, h, ne_eq,
          not_true_eq_false, decide_false, Bool.false_eq_true, if_false]
        rw [ih]; simp
      · simp only [List.reverse_cons, List.reverse_nil, List.nil_append, List.cons_append, List.filter_cons, h, ne_eq,
          not_false_eq_true, decide_true, if_true, List.map_cons, List.sum_cons]
        rw [ih]; ring
  unfold termsMv exportTerms
  rw [List.map_cons, List.sum_cons, List.map_map, map_add, rename_monomial, ← fs_embed, ← key]
  rfl

/-- Reduction of the exported polynomial modulo a prime. -/
theorem exportTerms_map (e : ℕ) (ldm : Fin n → ℕ) (mb : List (Fin n → ℕ)) (P : LiftGB.MPoly) {R : Type*} [CommRing R] :
    MvPolynomial.map (Int.castRingHom R) (termsMv (exportTerms e ldm mb P)) =
      rename (Fin.natAdd e) (monomial (fs ldm) (P.lm : R) + slotPoly mb P.len (fun l => (P.qn l : R))) := by
  rw [exportTerms_mv, MvPolynomial.map_rename, map_add, map_monomial]
  congr 2
  unfold slotPoly
  rw [map_sum]
  apply Finset.sum_congr rfl
  intro l _
  rw [map_monomial]; rfl

theorem slotPoly_smul {R : Type*} [CommRing R] (mb : List (Fin n → ℕ)) (L : ℕ) (a : R) (c d : ℕ → R)
    (h : ∀ l < L, d l = a * c l) : slotPoly mb L d = C a * slotPoly mb L c := by
  unfold slotPoly
  rw [Finset.mul_sum]
  apply Finset.sum_congr rfl
  intro l hl
  rw [C_mul_monomial, h l (Finset.mem_range.mp hl)]

/-- The exported terms are strictly decreasing and not zero. -/
theorem exportTerms_ok (e : ℕ) {ldm : Fin n → ℕ} {mb : List (Fin n → ℕ)} (hs : mb.Pairwise Drl) {P : LiftGB.MPoly}
    (hlen : P.len ≤ mb.length) (hlm : P.lm ≠ 0) (hld : ∀ i (h : i < mb.length), i < P.len → P.qn i ≠ 0 → Drl mb[i] ldm) :
    (∀ t ∈ exportTerms e ldm mb P, t.2 ≠ 0 ∧ ∃ m, t.1 = embed e m) ∧
    (exportTerms e ldm mb P).Pairwise fun s t => Drl (fun i => t.1 (Fin.natAdd e i)) fun i => s.1 (Fin.natAdd e i) := by
  have hdrop : ∀ m : Fin n → ℕ, (fun i => embed e m (Fin.natAdd e i)) = m := by
    intro m; funext i; simp [embed]
  have hg : ∀ l (_ : l < P.len), mb.getD l 0 = mb[l]'(by omega) := by
    intro l hl
    rw [List.getD_eq_getElem?_getD, List.getElem?_eq_getElem (by omega)]; rfl
  constructor
  · intro t ht
    unfold exportTerms at ht
    rcases List.mem_cons.mp ht with rfl | ht
    · exact ⟨hlm, ldm, rfl⟩
    · obtain ⟨i, hi, rfl⟩ := List.mem_map.mp ht
      rw [List.mem_filter] at hi
      exact ⟨by simpa using hi.2, _, rfl⟩
  · unfold exportTerms
    rw [List.pairwise_cons]
    constructor
    · intro t ht
      obtain ⟨i, hi, rfl⟩ := List.mem_map.mp ht
      rw [List.mem_filter, List.mem_reverse, List.mem_range] at hi
      simp only [hdrop]
      rw [hg i hi.1]
      exact hld i (by omega) hi.1 (by simpa using hi.2)
    · rw [List.pairwise_map]
      apply List.Pairwise.filter
      rw [List.pairwise_reverse, List.pairwise_iff_getElem]
      intro i j hi hj hij
      rw [List.length_range] at hi hj
      simp only [List.getElem_range, hdrop]
      rw [hg i hi, hg j hj]
      exact List.pairwise_iff_getElem.mp hs i j (by omega) (by omega) hij

end Verif.LiftStore
