import Verif.Colon
import Verif.Props.SolveShape

/-!
C91: the truncated staircase of `msolve -C`.
-/
namespace Verif.Props
open Verif.Hilbert Verif.Spec
open Verif.Colon (colon noZero maxDeg)

variable {n : ℕ}

namespace Colon

/-- The product of the monomial and a power of the last variable. -/
def shift (m : Fin n → ℕ) (k : ℕ) : Fin n → ℕ := fun i => if i.val + 1 = n then m i + k else m i

/-- In the monomial ideal. -/
def Under (lms : List (Fin n → ℕ)) (m : Fin n → ℕ) : Prop := ∃ l ∈ lms, ∀ i, l i ≤ m i

theorem irred_iff (lms : List (Fin n → ℕ)) (m : Fin n → ℕ) : Irred lms m ↔ ¬ Under lms m := by
  simp [Irred, Under]

theorem killed_iff (lms : List (Fin n → ℕ)) (m : Fin n → ℕ) :
    Verif.Colon.lexpWithoutLast lms m = true ↔ ∃ k, Under lms (shift m k) := by
  rw [Verif.Colon.lexpWithoutLast_iff]
  constructor
  · rintro ⟨l, hl, h⟩
    refine ⟨∑ i, l i, l, hl, fun i => ?_⟩
    unfold shift
    split_ifs with hi
    · have := Finset.single_le_sum (f := l) (fun _ _ => Nat.zero_le _) (Finset.mem_univ i)
      omega
    · exact h i (by omega)
  · rintro ⟨k, l, hl, h⟩
    refine ⟨l, hl, fun i hi => ?_⟩
    have := h i
    unfold shift at this
    rwa [if_neg (by omega)] at this

theorem zero_iff (lms : List (Fin n → ℕ)) : Irred lms (fun _ => 0) ↔ (fun _ => 0) ∉ lms := by
  constructor
  · intro h hm
    exact h _ hm fun _ => le_rfl
  · intro h l hl hle
    apply h
    have : l = fun _ => 0 := funext fun i => Nat.le_zero.mp (hle i)
    rwa [← this]

end Colon

open Verif.Props.Colon

/-- C91: the bound of the degree is the greatest of the degrees of the normal form and of the leading monomials. -/
theorem C91_degree (nf : ℕ) (lms : List (Fin n → ℕ)) : IsGreatest ({nf} ∪ {d | ∃ l ∈ lms, d = ∑ i, l i}) (maxDeg nf lms) := by
  have hs : ∀ (l : Fin n → ℕ), (List.finRange n).foldl (fun s i => s + l i) 0 = ∑ i, l i := by
    intro l
    rw [← List.sum_ofFn, List.ofFn_eq_map, List.sum_eq_foldl, List.foldl_map]
  unfold maxDeg
  simp only [hs]
  induction lms generalizing nf with
  | nil => simp
  | cons l lms ih =>
    have h := ih (max nf (∑ i, l i))
    rw [List.foldl_cons]
    constructor
    · rcases h.1 with h1 | ⟨l', hl', h1⟩
      · rw [Set.mem_singleton_iff] at h1
        rcases max_choice nf (∑ i, l i) with h2 | h2
        · left; rw [Set.mem_singleton_iff, h1, h2]
        · right; exact ⟨l, List.mem_cons_self, by rw [h1, h2]⟩
      · right; exact ⟨l', List.mem_cons_of_mem _ hl', h1⟩
    · have h0 := h.2 (Or.inl rfl)
      rintro d (hd | ⟨l', hl', rfl⟩)
      · rw [Set.mem_singleton_iff] at hd
        rw [hd]
        exact (le_max_left _ _).trans h0
      · rcases List.mem_cons.mp hl' with rfl | hl'
        · exact (le_max_right _ _).trans h0
        · exact h.2 (Or.inr ⟨l', hl', rfl⟩)

/-- C91: unless 1 is a leading monomial, the truncated staircase lists, in increasing order, exactly the monomials up to the degree `D` that no leading monomial divides. -/
theorem C91_truncated (hn : 1 ≤ n) {lms : List (Fin n → ℕ)} (h : (fun _ => 0) ∉ lms) (D : ℕ) :
    ∃ L, colon lms D = .rows L ∧ L.Pairwise Drl ∧ ∀ m, m ∈ L ↔ (¬ ∃ l ∈ lms, ∀ i, l i ≤ m i) ∧ ∑ i, m i ≤ D := by
  have hI := (zero_iff lms).mpr h
  obtain ⟨L, h1, h2, h3⟩ := Verif.Colon.stair_spec hn hI D
  refine ⟨L, ?_, h2, fun m => by rw [h3, irred_iff]; rfl⟩
  unfold colon
  rw [(isDivisibleLexp_iff _ _).mpr hI, h1]
  rfl

/-- C91: the rows that are kept for the computation are, in increasing order, exactly those monomials of the truncated staircase whose product with some power of the last variable is a
multiple of a leading monomial; if there is none the program ends.  Nothing is written outside of an array. -/
theorem C91_kept (hn : 1 ≤ n) {lms : List (Fin n → ℕ)} (h : (fun _ => 0) ∉ lms) (D : ℕ) :
    ∃ L, noZero lms D = (if L = [] then .exit else .rows L) ∧ L.Pairwise Drl ∧
      ∀ m, m ∈ L ↔ (¬ ∃ l ∈ lms, ∀ i, l i ≤ m i) ∧ ∑ i, m i ≤ D ∧ ∃ k, ∃ l ∈ lms, ∀ i : Fin n, l i ≤ if i.val + 1 = n then m i + k else m i := by
  obtain ⟨L, h1, h2, h3, h4⟩ := Verif.Colon.noZero_spec hn ((zero_iff lms).mpr h) D
  refine ⟨_, h4, h1.filter _, fun m => ?_⟩
  rw [List.mem_filter, h2, killed_iff, irred_iff, and_assoc]
  rfl

/-- C91: the functions return nothing exactly if 1 is a leading monomial, that is for the unit ideal. -/
theorem C91_null (hn : 1 ≤ n) (lms : List (Fin n → ℕ)) (D : ℕ) : (noZero lms D = .null ↔ (fun _ => 0) ∈ lms) ∧ (colon lms D = .null ↔ (fun _ => 0) ∈ lms) := by
  by_cases h : (fun _ => 0) ∈ lms
  · have : isDivisibleLexp lms (fun _ => 0) = true := by
      rw [← Bool.not_eq_false, isDivisibleLexp_iff, zero_iff]
      exact fun hc => hc h
    unfold noZero colon
    simp [this, h]
  · obtain ⟨L, h1, -⟩ := C91_kept hn h D
    obtain ⟨L', h2, -⟩ := C91_truncated hn h D
    rw [h1, h2]
    split_ifs <;> simp [h]

/-- C91 (finding): for the leading monomials of a reduced basis, and the bound of the degree that is used, the program ends with the message that the vector space is too small exactly if
no leading monomial contains the last variable. -/
theorem C91_too_small (hn : 1 ≤ n) {lms : List (Fin n → ℕ)} (h : (fun _ => 0) ∉ lms) (hmin : ∀ l ∈ lms, ∀ l' ∈ lms, (∀ i, l' i ≤ l i) → l' = l) (nf : ℕ) :
    noZero lms (maxDeg nf lms) = .exit ↔ ∀ l ∈ lms, l ⟨n - 1, by omega⟩ = 0 := by
  obtain ⟨L, h1, -, h3⟩ := C91_kept hn h (maxDeg nf lms)
  have hD : ∀ l ∈ lms, ∑ i, l i ≤ maxDeg nf lms := fun l hl => (C91_degree nf lms).2 (Or.inr ⟨l, hl, rfl⟩)
  have hx : noZero lms (maxDeg nf lms) = .exit ↔ L = [] := by
    rw [h1]
    split_ifs with hL <;> simp [hL]
  rw [hx, List.eq_nil_iff_forall_not_mem]
  constructor
  · intro hL l hl
    by_contra hc
    set m : Fin n → ℕ := fun i => if i.val + 1 = n then l i - 1 else l i with hm
    have hle : ∀ i, m i ≤ l i := fun i => by
      simp only [hm]
      split_ifs <;> omega
    refine hL m ((h3 m).mpr ⟨?_, ?_, 1, l, hl, fun i => ?_⟩)
    · rintro ⟨l', hl', hd⟩
      have he := hmin l hl l' hl' fun i => (hd i).trans (hle i)
      have := hd ⟨n - 1, by omega⟩
      rw [he] at this
      simp only [hm] at this
      rw [if_pos (by omega)] at this
      omega
    · exact (Finset.sum_le_sum fun i _ => hle i).trans (hD l hl)
    · simp only [hm]
      split_ifs <;> omega
  · intro hl m hm
    obtain ⟨k1, -, k, l, hlm, k3⟩ := (h3 m).mp hm
    refine k1 ⟨l, hlm, fun i => ?_⟩
    by_cases hi : i.val + 1 = n
    · have : i = ⟨n - 1, by omega⟩ := Fin.ext (by simp; omega)
      rw [this, hl l hlm]
      exact Nat.zero_le _
    · have := k3 i
      rwa [if_neg hi] at this

/-- C91: if a power of the last variable is a leading monomial, as for every ideal with finitely many solutions, nothing is removed. -/
theorem C91_finite (hn : 1 ≤ n) {lms : List (Fin n → ℕ)} (h : (fun _ => 0) ∉ lms) (hp : ∃ l ∈ lms, ∀ i : Fin n, i.val + 1 < n → l i = 0) (D : ℕ) :
    noZero lms D = colon lms D := by
  obtain ⟨L, h1, h2, h3, h4⟩ := Verif.Colon.noZero_spec hn ((zero_iff lms).mpr h) D
  have hall : L.filter (Verif.Colon.lexpWithoutLast lms) = L := by
    rw [List.filter_eq_self]
    intro m _
    obtain ⟨l, hl, hl0⟩ := hp
    exact (Verif.Colon.lexpWithoutLast_iff lms m).mpr ⟨l, hl, fun i hi => by rw [hl0 i hi]; exact Nat.zero_le _⟩
  have hne : L ≠ [] := by
    refine List.ne_nil_of_mem (a := fun _ => 0) ((h2 _).mpr ⟨(zero_iff lms).mpr h, by simp⟩)
  rw [h4, hall, if_neg hne]
  unfold colon
  rw [(isDivisibleLexp_iff _ _).mpr ((zero_iff lms).mpr h), h3]
  rfl

/-- C91: the same for an ideal with a reduced Gröbner basis `G`: the rows are the standard monomials up to the degree `D` whose product with some power of the last variable is not standard. -/
theorem C91_ideal (hn : 1 ≤ n) {p : ℕ} [Fact p.Prime] {I : Ideal (MvPolynomial (Fin n) (ZMod p))} {G : List (F4.Poly n)}
    (hG : IsReducedGroebner F4.OKind.drl.mo I {g | ∃ f ∈ G, g = F4.toMv p f}) (hok : ∀ f ∈ G, F4.PolyOk .drl p f) (hI : I ≠ ⊤) (D : ℕ) :
    ∃ L, noZero (G.map F4.lead) D = (if L = [] then .exit else .rows L) ∧ L.Pairwise Drl ∧
      ∀ m, m ∈ L ↔ Standard F4.OKind.drl.mo I (F4.fs m) ∧ ∑ i, m i ≤ D ∧ ∃ k, ¬ Standard F4.OKind.drl.mo I (F4.fs m + Finsupp.single ⟨n - 1, by omega⟩ k) := by
  have hst : ∀ m : Fin n → ℕ, Standard F4.OKind.drl.mo I (F4.fs m) ↔ ¬ ∃ l ∈ G.map F4.lead, ∀ i, l i ≤ m i := by
    intro m
    rw [Solve.standard_iff hG hok]
    simp [Pi.le_def]
  have h0 : (fun _ => 0) ∉ G.map F4.lead := by
    intro hm
    have hns : ¬ Standard F4.OKind.drl.mo I (F4.fs (fun _ => 0)) := by
      rw [hst, not_not]
      exact ⟨_, hm, fun _ => le_rfl⟩
    unfold Standard at hns
    push Not at hns
    obtain ⟨g, hg, hg0, hd⟩ := hns
    have hd : F4.OKind.drl.mo.degree g = 0 := by
      rw [hd]
      ext i
      rfl
    have hC := MonomialOrder.eq_C_of_degree_eq_zero hd
    have hc : F4.OKind.drl.mo.leadingCoeff g ≠ 0 := MonomialOrder.leadingCoeff_ne_zero_iff.mpr hg0
    apply hI
    rw [Ideal.eq_top_iff_one]
    have := I.mul_mem_left (MvPolynomial.C (F4.OKind.drl.mo.leadingCoeff g)⁻¹) hg
    rwa [hC, MonomialOrder.leadingCoeff_C, ← MvPolynomial.C_mul, inv_mul_cancel₀ hc, MvPolynomial.C_1] at this
  obtain ⟨L, h1, h2, h3⟩ := C91_kept hn h0 D
  refine ⟨L, h1, h2, fun m => ?_⟩
  rw [h3, hst]
  refine and_congr_right' (and_congr_right' (exists_congr fun k => ?_))
  have he : F4.fs m + Finsupp.single ⟨n - 1, by omega⟩ k = F4.fs (fun i : Fin n => if i.val + 1 = n then m i + k else m i) := by
    ext i
    rw [Finsupp.add_apply, Finsupp.single_apply]
    show m i + _ = if i.val + 1 = n then m i + k else m i
    by_cases hi : i.val + 1 = n
    · rw [if_pos (Fin.ext (by simp; omega)), if_pos hi]
    · rw [if_neg (fun hc => hi (by rw [← hc]; simp; omega)), if_neg hi, Nat.add_zero]
  rw [he, hst, not_not]

/-- C91 (finding): the span of the rows need not be closed under the multiplication by the last variable up to normal forms: for `x^2, y^2, z^2` and an element of degree at most 2,
`x*y` is a row, `x*y*z` is standard but no row. -/
theorem C91_not_closed : ∃ L, noZero [![2, 0, 0], ![0, 2, 0], ![0, 0, 2]] (maxDeg 2 [![2, 0, 0], ![0, 2, 0], ![0, 0, 2]]) = .rows L ∧
    ![1, 1, 0] ∈ L ∧ ![1, 1, 1] ∉ L ∧ ¬ ∃ l ∈ [![2, 0, 0], ![0, 2, 0], ![0, 0, 2]], ∀ i, l i ≤ (![1, 1, 1] : Fin 3 → ℕ) i := by
  have hD : maxDeg 2 [![2, 0, 0], ![0, 2, 0], ![0, 0, 2]] = 2 := by decide
  obtain ⟨L, h1, -, h3⟩ := C91_kept (n := 3) (lms := [![2, 0, 0], ![0, 2, 0], ![0, 0, 2]]) (by norm_num) (by decide) 2
  have hm : ![1, 1, 0] ∈ L := (h3 _).mpr ⟨by decide, by decide, 2, ![0, 0, 2], by simp, by decide⟩
  rw [hD, h1, if_neg (List.ne_nil_of_mem hm)]
  exact ⟨L, rfl, hm, fun hc => absurd ((h3 _).mp hc).2.1 (by decide), by decide⟩

/-- The hypotheses of `C91_too_small` are met, in both cases: `x` ends the program, `x*y` does not. -/
example : noZero [![1, 0]] (maxDeg 1 [![1, 0]]) = .exit ∧ noZero [![1, 1]] (maxDeg 1 [![1, 1]]) ≠ .exit :=
  ⟨(C91_too_small (n := 2) (by norm_num) (by decide) (by decide) 1).mpr (by decide),
    fun h => absurd ((C91_too_small (n := 2) (by norm_num) (by decide) (by decide) 1).mp h) (by decide)⟩

end Verif.Props
