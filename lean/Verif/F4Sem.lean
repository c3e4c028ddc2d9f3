import Verif.Groebner
import Verif.Symbolic

/-! Polynomials of the model as elements of Mathlib's polynomial ring. -/

namespace Verif.F4

open Verif.Pairs Verif.Spec Verif.RowReduce Verif.Groebner Verif.Orders MvPolynomial

variable {n : Nat}

theorem OKind.adm (O : OKind) : Admissible (n := n) O.lt := by
  cases O with
  | drl => exact drl_admissible
  | lex => exact lex_admissible
  | be k => exact be_admissible k

/-- Exponent vectors as finitely supported functions. -/
noncomputable def fs (u : Mon n) : Fin n →₀ ℕ := Finsupp.equivFunOnFinite.symm u

@[simp] theorem fs_apply (u : Mon n) (i : Fin n) : fs u i = u i := rfl
theorem fs_coe (u : Mon n) : (fs u : Fin n → ℕ) = u := rfl
theorem fs_inj {u v : Mon n} : fs u = fs v ↔ u = v := Finsupp.equivFunOnFinite.symm.injective.eq_iff
theorem fs_add (u v : Mon n) : fs (u + v) = fs u + fs v := by ext i; rfl
theorem fs_zero : fs (0 : Mon n) = 0 := by ext i; rfl
theorem fs_sub (u v : Mon n) : fs (u - v) = fs u - fs v := by ext i; rfl
theorem fs_sup (u v : Mon n) : fs (u ⊔ v) = fs u ⊔ fs v := by ext i; rfl
theorem fs_le {u v : Mon n} : fs u ≤ fs v ↔ u ≤ v := Iff.rfl
theorem fs_surj (a : Fin n →₀ ℕ) : ∃ u : Mon n, fs u = a := ⟨a, by ext i; rfl⟩

/-- The polynomial a list of terms stands for. -/
noncomputable def toMv (p : Nat) (f : Poly n) : MvPolynomial (Fin n) (ZMod p) :=
  (f.map fun t => monomial (fs t.1) ((t.2 : Nat) : ZMod p)).sum

/-- The monomial order of the library as an order of Mathlib. -/
noncomputable abbrev OKind.mo (O : OKind) : MonomialOrder (Fin n) := Spec.mo (O.adm (n := n))

theorem lt_iff (O : OKind) (u v : Mon n) : O.mo.toSyn (fs u) < O.mo.toSyn (fs v) ↔ O.lt u v := Iff.rfl

/-- Terms strictly decreasing, coefficients reduced and non-zero, leading coefficient one. -/
structure PolyOk (O : OKind) (p : Nat) (f : Poly n) : Prop where
  head : ∃ t, f = (lead f, 1) :: t
  sorted : (f.map Prod.fst).Pairwise fun a b => O.lt b a
  coeff : ∀ t ∈ f, 0 < t.2 ∧ t.2 < p

theorem toMv_nil (p : Nat) : toMv p ([] : Poly n) = 0 := rfl
theorem toMv_cons (p : Nat) (t : Mon n × Nat) (f : Poly n) :
    toMv p (t :: f) = monomial (fs t.1) ((t.2 : Nat) : ZMod p) + toMv p f := by
  simp [toMv]

theorem toMv_mulPoly (p : Nat) [Fact p.Prime] (u : Mon n) (f : Poly n) : toMv p (mulPoly u f) = X' (fs u) * toMv p f := by
  induction f with
  | nil => simp [mulPoly, toMv_nil]
  | cons t f ih =>
    have : mulPoly u (t :: f) = (u + t.1, t.2) :: mulPoly u f := rfl
    rw [this, toMv_cons, toMv_cons, ih, mul_add]
    congr 1
    rw [X', monomial_mul, one_mul, fs_add]

theorem toMv_coeff_zero (p : Nat) (f : Poly n) (m : Mon n) (h : ∀ t ∈ f, t.1 ≠ m) : coeff (fs m) (toMv p f) = 0 := by
  induction f with
  | nil => simp [toMv_nil]
  | cons t f ih =>
    rw [toMv_cons, coeff_add, coeff_monomial, if_neg, ih fun t ht => h t (List.mem_cons_of_mem _ ht), add_zero]
    intro he
    exact h t List.mem_cons_self (fs_inj.mp he)

/-- Terms of the polynomial of an ordered list are the terms of the list. -/
theorem toMv_coeff {O : OKind} (p : Nat) (f : Poly n) (hs : (f.map Prod.fst).Pairwise fun a b => O.lt b a)
    (t : Mon n × Nat) (ht : t ∈ f) : coeff (fs t.1) (toMv p f) = (t.2 : ZMod p) := by
  induction f with
  | nil => simp at ht
  | cons a f ih =>
    rw [List.map_cons, List.pairwise_cons] at hs
    rw [toMv_cons, coeff_add, coeff_monomial]
    rcases List.mem_cons.mp ht with rfl | ht
    · rw [if_pos rfl, toMv_coeff_zero, add_zero]
      intro s hsf he
      have := hs.1 s.1 (List.mem_map_of_mem hsf)
      rw [he] at this
      exact O.adm.irrefl _ this
    · rw [if_neg, ih hs.2 ht, zero_add]
      intro he
      have := hs.1 t.1 (List.mem_map_of_mem ht)
      rw [fs_inj.mp he] at this
      exact O.adm.irrefl _ this

theorem toMv_le {O : OKind} (p : Nat) (f : Poly n) (m : Mon n) (h : ∀ t ∈ f, t.1 = m ∨ O.lt t.1 m) :
    O.mo.toSyn (O.mo.degree (toMv p f)) ≤ O.mo.toSyn (fs m) := by
  rw [MonomialOrder.degree_le_iff]
  intro b hb
  obtain ⟨u, rfl⟩ := fs_surj b
  rw [mem_support_iff] at hb
  by_contra hlt
  rw [not_le, lt_iff] at hlt
  apply hb
  apply toMv_coeff_zero
  intro t ht he
  rcases h t ht with h1 | h1
  · rw [← he, h1] at hlt
    exact O.adm.irrefl _ hlt
  · rw [← he] at hlt
    exact O.adm.irrefl _ (O.adm.trans _ _ _ hlt h1)

theorem PolyOk.terms {O : OKind} {p : Nat} {f : Poly n} (h : PolyOk O p f) :
    ∀ t ∈ f, t.1 = lead f ∨ O.lt t.1 (lead f) := by
  obtain ⟨g, hg⟩ := h.head
  have hs := h.sorted
  intro t ht
  rw [hg, List.map_cons, List.pairwise_cons] at hs
  rw [hg] at ht
  rcases List.mem_cons.mp ht with rfl | ht
  · exact Or.inl rfl
  · exact Or.inr (hs.1 _ (List.mem_map_of_mem ht))

theorem PolyOk.lead_mem {O : OKind} {p : Nat} {f : Poly n} (h : PolyOk O p f) : (lead f, 1) ∈ f := by
  obtain ⟨g, hg⟩ := h.head
  rw [hg]
  exact List.mem_cons_self

theorem PolyOk.degree {O : OKind} {p : Nat} [Fact p.Prime] {f : Poly n} (h : PolyOk O p f) :
    O.mo.degree (toMv p f) = fs (lead f) := by
  apply O.mo.toSyn.injective
  apply le_antisymm (toMv_le p f _ h.terms)
  apply O.mo.le_degree
  rw [mem_support_iff, toMv_coeff p f h.sorted (lead f, 1) h.lead_mem]
  simp

theorem PolyOk.monic {O : OKind} {p : Nat} [Fact p.Prime] {f : Poly n} (h : PolyOk O p f) :
    O.mo.leadingCoeff (toMv p f) = 1 := by
  rw [MonomialOrder.leadingCoeff, h.degree, toMv_coeff p f h.sorted (lead f, 1) h.lead_mem]
  simp

theorem lead_mulPoly (u : Mon n) {f : Poly n} (h : f ≠ []) : lead (mulPoly u f) = u + lead f := by
  cases f with
  | nil => exact absurd rfl h
  | cons t f => rfl

theorem PolyOk.ne_nil {O : OKind} {p : Nat} {f : Poly n} (h : PolyOk O p f) : f ≠ [] := by
  obtain ⟨g, hg⟩ := h.head
  rw [hg]
  exact List.cons_ne_nil _ _

theorem PolyOk.mul {O : OKind} {p : Nat} {f : Poly n} (h : PolyOk O p f) (u : Mon n) : PolyOk O p (mulPoly u f) := by
  refine ⟨?_, ?_, ?_⟩
  · obtain ⟨g, hg⟩ := h.head
    refine ⟨mulPoly u g, ?_⟩
    rw [lead_mulPoly u h.ne_nil]
    conv_lhs => rw [hg]
    rfl
  · have : (mulPoly u f).map Prod.fst = (f.map Prod.fst).map (u + ·) := by
      simp [mulPoly, Function.comp_def]
    rw [this, List.pairwise_map]
    refine h.sorted.imp ?_
    intro a b hab
    rw [add_comm u, add_comm u]
    exact O.adm.mul _ _ _ hab
  · intro t ht
    obtain ⟨s, hs, rfl⟩ := List.mem_map.mp ht
    exact h.coeff s hs

end Verif.F4
