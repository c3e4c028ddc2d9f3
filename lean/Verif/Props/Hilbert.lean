import Verif.Hilbert
import Mathlib.Tactic.FinCases
import Mathlib.Data.Set.Card

/-!
Properties C23, C24 and C48: zero-dimensionality and the monomial basis of the quotient.
-/
namespace Verif.Props
open Verif.Spec Verif.Hilbert

/-! ### C23 -/

/-- C23: for pairwise incomparable leading monomials different from 1 (the leading monomials of a minimal
Groebner basis of a proper ideal) the test answers yes exactly if only finitely many monomials are not
divisible by any of them. -/
theorem C23_dimension_zero {n : Nat} (hn : 1 ≤ n) (lms : List (Fin n → ℕ))
    (hmin : lms.Pairwise fun a b => (¬ ∀ i, a i ≤ b i) ∧ ¬ ∀ i, b i ≤ a i)
    (hone : ∀ l ∈ lms, ∃ i, l i ≠ 0) :
    hasDimensionZero lms = true ↔ {m : Fin n → ℕ | ∀ l ∈ lms, ¬ ∀ i, l i ≤ m i}.Finite := by
  change _ ↔ {m | Irred lms m}.Finite
  rw [finite_iff]
  unfold hasDimensionZero
  rw [dimLoop_iff, Nat.zero_add, List.countP_eq_length_filter]
  have hpp : ∀ e ∈ lms.filter (fun e => isPurePower e), ∃ v, e v ≠ 0 ∧ ∀ j, j ≠ v → e j = 0 := by
    intro e he
    obtain ⟨h1, h2⟩ := List.mem_filter.mp he
    obtain ⟨v, hv⟩ := (isPurePower_iff hn e).mp h2
    obtain ⟨i, hi⟩ := hone e h1
    by_cases hiv : i = v
    · exact ⟨v, hiv ▸ hi, hv⟩
    · exact absurd (hv i hiv) hi
  -- the variable of a pure power
  classical
  let var : (Fin n → ℕ) → Fin n := fun e => if h : ∃ v, e v ≠ 0 ∧ ∀ j, j ≠ v → e j = 0 then h.choose else ⟨0, hn⟩
  have hvar : ∀ e ∈ lms.filter (fun e => isPurePower e), e (var e) ≠ 0 ∧ ∀ j, j ≠ var e → e j = 0 := by
    intro e he
    have h := hpp e he
    simp only [var, dif_pos h]
    exact h.choose_spec
  have hnd : ((lms.filter (fun e => isPurePower e)).map var).Nodup := by
    unfold List.Nodup
    rw [List.pairwise_map]
    refine List.Pairwise.imp_of_mem ?_ (hmin.sublist List.filter_sublist)
    intro a b ha hb hab heq
    obtain ⟨ha1, ha2⟩ := hvar a ha
    obtain ⟨hb1, hb2⟩ := hvar b hb
    rw [← heq] at hb1 hb2
    rcases Nat.le_total (a (var a)) (b (var a)) with h | h
    · apply hab.1
      intro i
      by_cases hi : i = var a
      · rw [hi]; exact h
      · rw [ha2 i hi]; omega
    · apply hab.2
      intro i
      by_cases hi : i = var a
      · rw [hi]; exact h
      · rw [hb2 i hi]; omega
  have hcard : ((lms.filter (fun e => isPurePower e)).map var).toFinset.card =
      (lms.filter (fun e => isPurePower e)).length := by
    rw [List.toFinset_card_of_nodup hnd, List.length_map]
  constructor
  · intro hle v
    have huniv : ((lms.filter (fun e => isPurePower e)).map var).toFinset = Finset.univ := by
      rw [Finset.eq_univ_iff_forall]
      apply Finset.eq_univ_iff_forall.mp
      apply Finset.eq_univ_of_card
      have := Finset.card_le_univ ((lms.filter (fun e => isPurePower e)).map var).toFinset
      rw [Fintype.card_fin] at this ⊢
      omega
    have hv := Finset.eq_univ_iff_forall.mp huniv v
    rw [List.mem_toFinset] at hv
    obtain ⟨e, he, rfl⟩ := List.mem_map.mp hv
    exact ⟨e, (List.mem_filter.mp he).1, (hvar e he).2⟩
  · intro hall
    have huniv : ((lms.filter (fun e => isPurePower e)).map var).toFinset = Finset.univ := by
      rw [Finset.eq_univ_iff_forall]
      intro v
      obtain ⟨l, hl, hz⟩ := hall v
      have hlf : l ∈ lms.filter (fun e => isPurePower e) :=
        List.mem_filter.mpr ⟨hl, (isPurePower_iff hn l).mpr ⟨v, hz⟩⟩
      rw [List.mem_toFinset]
      refine List.mem_map.mpr ⟨l, hlf, ?_⟩
      by_contra hne
      exact (hvar l hlf).1 (hz _ hne)
    rw [huniv, Finset.card_univ, Fintype.card_fin] at hcard
    omega

/-- Leading monomials `x^2, xy, y^3`: the hypotheses hold and the answer is yes; without `y^3` it is no. -/
example : ([![2, 0], ![1, 1], ![0, 3]] : List (Fin 2 → ℕ)).Pairwise
      (fun a b => (¬ ∀ i, a i ≤ b i) ∧ ¬ ∀ i, b i ≤ a i) ∧
    (∀ l ∈ ([![2, 0], ![1, 1], ![0, 3]] : List (Fin 2 → ℕ)), ∃ i, l i ≠ 0) ∧
    hasDimensionZero ([![2, 0], ![1, 1], ![0, 3]] : List (Fin 2 → ℕ)) = true ∧
    hasDimensionZero ([![2, 0], ![1, 1]] : List (Fin 2 → ℕ)) = false := by decide

/-- C23, why the condition on 1 is needed: for the unit ideal in two or more variables the test answers no
although no monomial is irreducible. (The callers handle the unit ideal before.) -/
theorem C23_unit_ideal {n : Nat} (hn : 2 ≤ n) : hasDimensionZero [fun _ : Fin n => 0] = false ∧
    {m : Fin n → ℕ | ∀ l ∈ [fun _ : Fin n => 0], ¬ ∀ i, l i ≤ m i} = ∅ := by
  constructor
  · cases h : hasDimensionZero [fun _ : Fin n => 0]
    · rfl
    · unfold hasDimensionZero at h
      rw [dimLoop_iff] at h
      have := List.countP_le_length (p := fun e => isPurePower e) (l := [fun _ : Fin n => 0])
      simp only [List.length_singleton] at this
      omega
  · ext m
    simp

/-! ### C24 -/

/-- C24: if the computation returns (after any number of turns), the list is strictly increasing for DRL and
contains exactly the irreducible monomials; hence each of them once. -/
theorem C24_monomial_basis {n : Nat} (hn : 1 ≤ n) (lms : List (Fin n → ℕ)) (fuel : Nat) (L : List (Fin n → ℕ))
    (h : monomialBasis lms fuel = .done L) :
    L.Pairwise Drl ∧ L.Nodup ∧ (∀ m, m ∈ L ↔ ∀ l ∈ lms, ¬ ∀ i, l i ≤ m i) ∧
    L.length = {m : Fin n → ℕ | ∀ l ∈ lms, ¬ ∀ i, l i ≤ m i}.ncard := by
  have key : L.Pairwise Drl ∧ ∀ m, m ∈ L ↔ Irred lms m := by
    unfold monomialBasis at h
    split_ifs at h with hd
    · obtain rfl : [] = L := by injection h
      refine ⟨List.Pairwise.nil, fun m => ?_⟩
      simp only [List.not_mem_nil, false_iff]
      intro hm
      have : Irred lms (fun _ => 0) := irred_of_le hm (fun _ => Nat.zero_le _)
      rw [(isDivisibleLexp_iff _ _).mpr this] at hd
      exact absurd hd (by simp)
    · have hirr : Irred lms (fun _ => 0) := (isDivisibleLexp_iff _ _).mp (by simpa using hd)
      rcases basisLoop_spec hn lms fuel 0 _ _ (inv_init lms hirr) (Or.inl ⟨rfl, rfl, fun _ => rfl⟩) with
        ⟨L', e, h1, h2⟩ | ⟨e, -⟩
      · rw [e] at h
        obtain rfl : L' = L := by injection h
        exact ⟨h1, h2⟩
      · rw [e] at h; cases h
  have hnd : L.Nodup := key.1.imp (fun {a b} h he => by rw [he] at h; exact Verif.Orders.drl_admissible.irrefl _ h)
  refine ⟨key.1, hnd, key.2, ?_⟩
  have : {m : Fin n → ℕ | ∀ l ∈ lms, ¬ ∀ i, l i ≤ m i} = (L.toFinset : Set (Fin n → ℕ)) := by
    ext m
    simp only [Set.mem_ofPred_eq, Finset.mem_coe, List.mem_toFinset]
    exact (key.2 m).symm
  rw [this, Set.ncard_coe_finset, List.toFinset_card_of_nodup hnd]

/-- C24: the computation returns exactly for zero-dimensional leading ideals: if there are finitely many
irreducible monomials it returns after a bounded number of turns, otherwise it never does. -/
theorem C24_termination {n : Nat} (hn : 1 ≤ n) (lms : List (Fin n → ℕ)) :
    ({m : Fin n → ℕ | ∀ l ∈ lms, ¬ ∀ i, l i ≤ m i}.Finite →
      ∃ D, ∀ fuel, D ≤ fuel → ∃ L, monomialBasis lms fuel = .done L) ∧
    ({m : Fin n → ℕ | ∀ l ∈ lms, ¬ ∀ i, l i ≤ m i}.Infinite → ∀ fuel, monomialBasis lms fuel = .running) := by
  constructor
  · intro hfin
    change {m | Irred lms m}.Finite at hfin
    obtain ⟨D, hD⟩ : ∃ D, ∀ m, Irred lms m → tdeg m ≤ D := by
      obtain ⟨D, hD⟩ := (hfin.image tdeg).bddAbove
      exact ⟨D, fun m hm => hD ⟨m, hm, rfl⟩⟩
    refine ⟨D, fun fuel hf => ?_⟩
    unfold monomialBasis
    split_ifs with hd
    · exact ⟨_, rfl⟩
    · have hirr : Irred lms (fun _ => 0) := (isDivisibleLexp_iff _ _).mp (by simpa using hd)
      rcases basisLoop_spec hn lms fuel 0 _ _ (inv_init lms hirr) (Or.inl ⟨rfl, rfl, fun _ => rfl⟩) with
        ⟨L', e, -, -⟩ | ⟨e, m, hm, hdm⟩
      · exact ⟨L', e⟩
      · have := hD m hm; omega
  · intro hinf fuel
    have hex : ∀ L, monomialBasis lms fuel ≠ .done L := by
      intro L hL
      have := (C24_monomial_basis hn lms fuel L hL).2.2.1
      apply hinf
      have e : {m : Fin n → ℕ | ∀ l ∈ lms, ¬ ∀ i, l i ≤ m i} = (L.toFinset : Set (Fin n → ℕ)) := by
        ext m
        simp only [Set.mem_ofPred_eq, Finset.mem_coe, List.mem_toFinset]
        exact (this m).symm
      rw [e]
      exact Finset.finite_toSet _
    have hsafe : monomialBasis lms fuel = .running ∨ ∃ L, monomialBasis lms fuel = .done L := by
      unfold monomialBasis
      split_ifs with hd
      · exact Or.inr ⟨_, rfl⟩
      · have hirr : Irred lms (fun _ => 0) := (isDivisibleLexp_iff _ _).mp (by simpa using hd)
        rcases basisLoop_spec hn lms fuel 0 _ _ (inv_init lms hirr) (Or.inl ⟨rfl, rfl, fun _ => rfl⟩) with
          ⟨L', e, -, -⟩ | ⟨e, -⟩
        · exact Or.inr ⟨L', e⟩
        · exact Or.inl e
    rcases hsafe with h | ⟨L, h⟩
    · exact h
    · exact absurd h (hex L)

/-! ### C48 -/

/-- C48: the array for the candidates of the next degree, of `sum(ind) + nvars` rows, is always large
enough: whatever the leading monomials and however long the loop runs, no row is written outside it. -/
theorem C48_no_overflow {n : Nat} (hn : 1 ≤ n) (lms : List (Fin n → ℕ)) (fuel : Nat) :
    monomialBasis lms fuel ≠ .overflow := by
  intro h
  unfold monomialBasis at h
  split_ifs at h with hd
  have hirr : Irred lms (fun _ => 0) := (isDivisibleLexp_iff _ _).mp (by simpa using hd)
  rcases basisLoop_spec hn lms fuel 0 _ _ (inv_init lms hirr) (Or.inl ⟨rfl, rfl, fun _ => rfl⟩) with
    ⟨L', e, -, -⟩ | ⟨e, -⟩
  · rw [e] at h; cases h
  · rw [e] at h; cases h

/-- For `x^2, xy, y^3` the basis is `1, y, x, y^2`, found in two turns. -/
example : monomialBasis ([![2, 0], ![1, 1], ![0, 3]] : List (Fin 2 → ℕ)) 2 =
    .done [![0, 0], ![0, 1], ![1, 0], ![0, 2]] := by
  have h : ∃ L, monomialBasis ([![2, 0], ![1, 1], ![0, 3]] : List (Fin 2 → ℕ)) 2 = .done L ∧
      L = [![0, 0], ![0, 1], ![1, 0], ![0, 2]] := ⟨_, rfl, by decide⟩
  obtain ⟨L, h1, h2⟩ := h
  rw [h1, h2]

/-- With `x^2` only, in two variables, the computation does not return. -/
example : {m : Fin 2 → ℕ | ∀ l ∈ ([![2, 0]] : List (Fin 2 → ℕ)), ¬ ∀ i, l i ≤ m i}.Infinite := by
  apply Set.infinite_of_injective_forall_mem (f := fun k : ℕ => ![0, k])
  · intro a b h
    have := congrFun h 1
    simpa using this
  · intro k l hl hd
    obtain rfl := List.mem_singleton.mp hl
    have := hd 0
    simp at this

end Verif.Props
