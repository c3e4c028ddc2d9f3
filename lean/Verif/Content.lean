import Mathlib.Data.Int.GCD
import Mathlib.Algebra.Order.Ring.Abs
import Mathlib.Algebra.GCDMonoid.Nat
import Mathlib.Algebra.GCDMonoid.Finset
import Mathlib.Tactic.Ring
import Mathlib.Tactic.Linarith

/-!
Content of integer polynomials.
Source: src/neogb/basis.c 461-520, src/usolve/utils.c 82-105.

`mpz_gcd` is the nonnegative gcd, `mpz_divexact` the division; a division by zero and an access out of the row are
`none`.
-/
namespace Verif.Content

/-- The unrolled loops, basis.c 493-498 and 514-519: four entries in each turn. -/
def blocks (f : ℤ → ℤ) : List ℤ → Option (List ℤ)
  | [] => some []
  | a :: b :: c :: d :: l => (blocks f l).map fun l => f a :: f b :: f c :: f d :: l
  | _ => none

/-- Both loops, basis.c 490-498 and 511-519; `os` is `hm[i][PRELOOP]`. -/
def applyRow (f : ℤ → ℤ) (os : ℕ) (row : List ℤ) : Option (List ℤ) :=
  if row.length < os then none else (blocks f (row.drop os)).map fun l => (row.take os).map f ++ l

/-- The gcd with early exit, basis.c 482-488; `none`: the content is one. -/
def contentLoop : ℤ → List ℤ → Option ℤ
  | c, [] => some c
  | c, a :: l => let c := (Int.gcd c a : ℤ); if c = 1 then none else contentLoop c l

/-- Removal of the content of one polynomial, basis.c 476-500. -/
def strip (os : ℕ) : List ℤ → Option (List ℤ)
  | [] => none
  | a :: l =>
    if a ≠ 0 then
      match contentLoop a l with
      | none => some (a :: l)
      | some c => applyRow (fun x => x / c) os (a :: l)
    else some (a :: l)

/-- The sign of one polynomial, basis.c 504-520. -/
def signRow (os : ℕ) : List ℤ → Option (List ℤ)
  | [] => none
  | a :: l => if a < 0 then applyRow (fun x => -x) os (a :: l) else some (a :: l)

/-- `remove_content_of_initial_basis`, basis.c 461-522, on the coefficient rows with their `PRELOOP` entries. -/
def removeContent (rows : List (ℕ × List ℤ)) : Option (List (List ℤ)) :=
  (rows.mapM fun r => strip r.1 r.2).bind fun l => ((rows.zip l).mapM fun r => signRow r.1.1 r.2)

/-- `USOLVEmpz_get_content`, utils.c 82-92: the new value of `g`. -/
def getContent (g : ℤ) (upol : ℕ → ℤ) (deg : ℕ) : ℤ :=
  if 1 ≤ deg then (contentLoop (upol 0) ((List.range deg).map fun i => upol (i + 1))).getD 1 else g

/-- `USOLVEmpz_remove_content`, `USOLVEmpz_restore_content`, utils.c 94-104. -/
def divContent (upol : ℕ → ℤ) (g : ℤ) : Option (ℕ → ℤ) := if g = 0 then none else some fun i => upol i / g
def mulContent (upol : ℕ → ℤ) (g : ℤ) : ℕ → ℤ := fun i => upol i * g

/-! ### Lemmas -/

theorem blocks_eq (f : ℤ → ℤ) : ∀ l : List ℤ, 4 ∣ l.length → blocks f l = some (l.map f)
  | [], _ => rfl
  | [_], h => by simp at h
  | [_, _], h => by norm_num at h
  | [_, _, _], h => by norm_num at h
  | a :: b :: c :: d :: l, h => by
    rw [blocks, blocks_eq f l (by simp only [List.length_cons] at h; omega)]
    rfl

theorem applyRow_eq (f : ℤ → ℤ) (row : List ℤ) : applyRow f (row.length % 4) row = some (row.map f) := by
  have h := Nat.mod_le row.length 4
  unfold applyRow
  rw [if_neg (by omega), blocks_eq f _ (by rw [List.length_drop]; exact Nat.dvd_sub_mod _)]
  simp only [Option.map_some]
  rw [← List.map_append, List.take_append_drop]

/-- The gcd of a list. -/
def gcdL (l : List ℤ) : ℕ := l.foldr (fun a g => Int.gcd a g) 0

theorem gcdL_dvd : ∀ {l : List ℤ} {a : ℤ}, a ∈ l → (gcdL l : ℤ) ∣ a
  | b :: l, a, h => by
    rcases List.mem_cons.mp h with rfl | h
    · exact Int.gcd_dvd_left _ _
    · exact (Int.gcd_dvd_right _ _).trans (gcdL_dvd h)

theorem dvd_gcdL : ∀ {l : List ℤ} {d : ℤ}, (∀ a ∈ l, d ∣ a) → d ∣ (gcdL l : ℤ)
  | [], d, _ => by simp [gcdL]
  | b :: l, d, h => by
    show d ∣ ((Int.gcd b (gcdL l) : ℕ) : ℤ)
    exact Int.dvd_coe_gcd (h b List.mem_cons_self) (dvd_gcdL fun a ha => h a (List.mem_cons_of_mem _ ha))

/-- A nonnegative number dividing all and divided by all common divisors is the gcd. -/
theorem gcdL_unique {l : List ℤ} {c : ℤ} (hc : 0 ≤ c) (h1 : ∀ a ∈ l, c ∣ a) (h2 : ∀ d : ℤ, (∀ a ∈ l, d ∣ a) → d ∣ c) :
    c = gcdL l :=
  Int.dvd_antisymm hc (by positivity) (dvd_gcdL h1) (h2 _ fun _ => gcdL_dvd)

theorem contentLoop_spec : ∀ (l : List ℤ) (c : ℤ),
    (contentLoop c l = none → gcdL (c :: l) = 1) ∧
    ∀ r, contentLoop c l = some r → (l ≠ [] → 0 ≤ r) ∧ |r| = gcdL (c :: l)
  | [], c => by
    refine ⟨fun h => by simp [contentLoop] at h, fun r h => ?_⟩
    simp only [contentLoop, Option.some.injEq] at h
    subst h
    exact ⟨fun h => absurd rfl h, by simp [gcdL]⟩
  | a :: l, c => by
    have hg : gcdL ((Int.gcd c a : ℤ) :: l) = gcdL (c :: a :: l) := by
      have : (gcdL ((Int.gcd c a : ℤ) :: l) : ℤ) = gcdL (c :: a :: l) := by
        refine gcdL_unique (by positivity) (fun b hb => ?_) fun d hd => dvd_gcdL fun b hb => ?_
        · have h1 : (gcdL ((Int.gcd c a : ℤ) :: l) : ℤ) ∣ (Int.gcd c a : ℤ) := gcdL_dvd List.mem_cons_self
          rcases List.mem_cons.mp hb with rfl | hb
          · exact h1.trans (Int.gcd_dvd_left _ _)
          rcases List.mem_cons.mp hb with rfl | hb
          · exact h1.trans (Int.gcd_dvd_right _ _)
          · exact gcdL_dvd (List.mem_cons_of_mem _ hb)
        · rcases List.mem_cons.mp hb with rfl | hb
          · exact Int.dvd_coe_gcd (hd c (by simp)) (hd a (by simp))
          · exact hd b (by simp [hb])
      exact_mod_cast this
    rw [contentLoop]
    split
    · rename_i h1
      refine ⟨fun _ => ?_, fun r h => by simp at h⟩
      rw [← hg, h1]
      simp [gcdL]
    · obtain ⟨h1, h2⟩ := contentLoop_spec l (Int.gcd c a)
      rw [hg] at h1 h2
      refine ⟨h1, fun r hr => ⟨fun _ => ?_, (h2 r hr).2⟩⟩
      by_cases hl : l = []
      · subst hl
        simp only [contentLoop, Option.some.injEq] at hr
        rw [← hr]; positivity
      · exact (h2 r hr).1 hl

theorem gcdL_mul (c : ℤ) (l : List ℤ) : gcdL (l.map fun x => c * x) = c.natAbs * gcdL l := by
  induction l with
  | nil => simp [gcdL]
  | cons a l ih =>
    show Int.gcd (c * a) (gcdL (l.map fun x => c * x)) = c.natAbs * Int.gcd a (gcdL l)
    rw [ih]
    simp only [Int.gcd, Int.natAbs_mul, Int.natAbs_natCast]
    exact Nat.gcd_mul_left _ _ _

theorem gcdL_pos {a : ℤ} {l : List ℤ} (ha : a ≠ 0) : 0 < gcdL (a :: l) :=
  Nat.pos_of_ne_zero fun h => ha (by simpa [h] using gcdL_dvd (l := a :: l) (a := a) List.mem_cons_self)

/-- A polynomial divided by its content up to sign, then with positive leading coefficient. -/
theorem strip_sign {a : ℤ} {l : List ℤ} (ha : a ≠ 0) :
    ∃ r, strip ((a :: l).length % 4) (a :: l) = some r ∧ r.length = (a :: l).length ∧
      ∃ (r' : List ℤ) (u b : ℤ) (m : List ℤ), signRow (r.length % 4) r = some r' ∧ r' = b :: m ∧ 0 < b ∧ gcdL r' = 1 ∧
        a :: l = r'.map (fun x => u * x) ∧ |u| = gcdL (a :: l) := by
  have main : ∀ r : List ℤ, ∀ v : ℤ, a :: l = r.map (fun x => v * x) → |v| = gcdL (a :: l) →
      ∃ (r' : List ℤ) (u b : ℤ) (m : List ℤ), signRow (r.length % 4) r = some r' ∧ r' = b :: m ∧ 0 < b ∧ gcdL r' = 1 ∧
        a :: l = r'.map (fun x => u * x) ∧ |u| = gcdL (a :: l) := by
    intro r v hr hv
    have hgp := gcdL_pos (l := l) ha
    have hgr : gcdL r = 1 := by
      have h := gcdL_mul v r
      rw [← hr] at h
      have : v.natAbs = gcdL (a :: l) := by rw [← Int.natCast_inj, Int.natCast_natAbs]; exact hv
      rw [this] at h
      exact Nat.eq_of_mul_eq_mul_left hgp (by omega)
    cases r with
    | nil => simp at hr
    | cons b m =>
      have hb : b ≠ 0 := by
        rintro rfl
        simp only [List.map_cons, List.cons.injEq, mul_zero] at hr
        exact ha hr.1
      rw [signRow]
      by_cases hneg : b < 0
      · rw [if_pos hneg]
        refine ⟨_, -v, -b, m.map fun x => -x, applyRow_eq _ _, rfl, by omega, ?_, ?_, by rw [abs_neg]; exact hv⟩
        · have h := gcdL_mul (-1) (b :: m)
          rw [show ((b :: m).map fun x : ℤ => -x) = (b :: m).map fun x => -1 * x by simp, h, hgr]
          rfl
        · rw [hr, List.map_map]
          exact List.map_congr_left fun x _ => by simp
      · rw [if_neg hneg]
        exact ⟨_, v, b, m, rfl, rfl, by omega, hgr, hr, hv⟩
  rw [strip, if_pos ha]
  obtain ⟨h1, h2⟩ := contentLoop_spec l a
  cases hc : contentLoop a l with
  | none =>
    exact ⟨_, rfl, rfl, main _ 1 (by simp) (by rw [h1 hc]; rfl)⟩
  | some c =>
    have hcg := (h2 c hc).2
    have hgp := gcdL_pos (l := l) ha
    have hc0 : c ≠ 0 := by rintro rfl; simp at hcg; omega
    refine ⟨_, applyRow_eq _ _, by simp, main _ c ?_ hcg⟩
    rw [List.map_map]
    conv_lhs => rw [← List.map_id (a :: l)]
    refine List.map_congr_left fun x hx => ?_
    have hdvd : c ∣ x := by
      rw [← abs_dvd, hcg]; exact gcdL_dvd hx
    simp only [id_eq, Function.comp_apply]
    exact (Int.mul_ediv_cancel' hdvd).symm

end Verif.Content
