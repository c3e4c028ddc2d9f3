import Verif.MulMatrix
import Verif.LinForms

/-!
The multiplication matrix for the primes after the first one: `build_matrixn_unstable_from_bs_trace_application`, src/msolve/hilbert.c 3046-3260.  What depends on
the leading monomials only is taken over from the first prime.
-/
namespace Verif.MatApply

open Verif.Spec Verif.F4 Verif.Pairs Verif.MulMatrix Verif.Orders

variable {n : ℕ}

/-- The positions whose products with `x` need a normal form (`extra_nf`), as recorded for the first prime, hilbert.c 2848-2907. -/
def extraOf (x : Fin n) (lms lmb : List (Mon n)) : Except Err (List ℕ) :=
  ((List.range lmb.length).foldlM (scanStep x lms lmb (divIdx x lms)) (0, [])).map Prod.snd

/-- `build_matrixn_unstable_from_bs_trace_application`, hilbert.c 3046-3260, for the basis `G` modulo `p`: `lms` are the leading monomials `bexp_lm` of the first
prime, `lmb` its monomial basis, `D` the array `div_xn`, `extra` the array `extra_nf`.  The lengths of the elements are read again (3118-3125), the normal forms
computed again (3078-3098); there is no test of the number of normal forms.  As in `build`, a product of none of the three kinds (3226-3239, the matrix is freed and
used afterwards) is an error. -/
def buildApply (p : ℕ) (x : Fin n) (G : List (Poly n)) (lms lmb : List (Mon n)) (D extra : List ℕ) (nf : List (Poly n) → List (Option (Poly n))) :
    Except Err MMat := do
  let lens ← (List.range G.length).foldlM (lenStep G D) []
  let N := if extra.length = 0 then [] else nf (extra.map fun i => [(Function.update (lmb.getD i 0) x (lmb.getD i 0 x + 1), 1)])
  let r ← (List.range lmb.length).foldlM (buildStep p x G lms lmb D lens extra N) ⟨[], [], 0, 0⟩
  .ok ⟨lmb.length, r.triv, r.dense.map fun q => (q.1, q.2, dstOf q.2)⟩

/-- What a matrix for the first prime says about the leading monomials. -/
theorem build_ok {p : ℕ} {x : Fin n} {us : ℤ} {G : List (Poly n)} {lmb : List (Mon n)} {nf : List (Poly n) → List (Option (Poly n))} {M : MMat}
    (h : build p x us G lmb nf = .ok M) :
    (divIdx x (G.map F4.lead)).length ≤ lmb.length ∧ ∃ extra, extraOf x (G.map F4.lead) lmb = .ok extra ∧
      extra.length ≤ threshold us (lmb.length - (divIdx x (G.map F4.lead)).length) := by
  unfold build at h
  simp only [bind, Except.bind] at h
  split at h
  · simp at h
  · rename_i lens hl
    split_ifs at h with h1
    refine ⟨by omega, ?_⟩
    split at h
    · simp at h
    · rename_i s hs
      split_ifs at h with h2
      all_goals exact ⟨s.2, by unfold extraOf; rw [hs]; rfl, by omega⟩

/-- With the leading monomials of the first prime the matrix is the one that would be built from the beginning. -/
theorem buildApply_eq {p : ℕ} {x : Fin n} {us : ℤ} {G : List (Poly n)} {lms lmb : List (Mon n)} {extra : List ℕ}
    (nf : List (Poly n) → List (Option (Poly n))) (hl : G.map F4.lead = lms) (hD : (divIdx x lms).length ≤ lmb.length)
    (he : extraOf x lms lmb = .ok extra) (ht : extra.length ≤ threshold us (lmb.length - (divIdx x lms).length)) :
    buildApply p x G lms lmb (divIdx x lms) extra nf = build p x us G lmb nf := by
  subst hl
  unfold extraOf at he
  unfold buildApply build
  cases hs : (List.range lmb.length).foldlM (scanStep x (G.map F4.lead) lmb (divIdx x (G.map F4.lead))) (0, []) with
  | error e => rw [hs] at he; simp [Except.map] at he
  | ok s =>
    rw [hs] at he
    simp only [Except.map, Except.ok.injEq] at he
    subst he
    have h1 : ¬ lmb.length < (divIdx x (G.map F4.lead)).length := by omega
    have h2 : ¬ threshold us (lmb.length - (divIdx x (G.map F4.lead)).length) < s.2.length := by omega
    simp only [hs, if_neg h1, bind, Except.bind, if_neg h2]

/-- The rows of the linear forms do not depend on the way the exponents are read. -/
theorem rows_slot {K : Type*} [Field K] {nv : ℕ} {polys : ℕ → List ((ℕ → ℕ) × K)} {lv : ℕ → ℕ} {s s' : (ℕ → ℕ) → ℕ → ℕ}
    (h : ∀ i, ∀ t ∈ polys i, ∀ k, k < nv → s t.1 k = s' t.1 k) : LinForms.rows s nv polys lv = LinForms.rows s' nv polys lv := by
  have hw : ∀ i, ∀ t ∈ polys i, ∀ base (L : ℕ → K), LinForms.writeTerm s nv base L t = LinForms.writeTerm s' nv base L t := by
    intro i t ht base L
    unfold LinForms.writeTerm
    rw [List.foldl_ext _ (fun (r : (ℕ → K) × Bool) k => if s' t.1 k = 1 then (Function.update r.1 (base + k) t.2, true) else r)]
    intro r k hk
    simp only [h i t ht k (List.mem_range.mp hk)]
  unfold LinForms.rows
  congr 1
  apply List.foldl_ext
  intro r i _
  unfold LinForms.rowStep
  simp only
  rw [List.foldl_ext _ (LinForms.writeTerm s' nv (r.2 * (nv + 1)))]
  intro L t ht
  exact hw _ t ht _ _

end Verif.MatApply
