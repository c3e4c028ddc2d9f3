import Verif.ModInverse
import Verif.RowReduce
import Mathlib.Algebra.Field.ZMod

/-! Model of the normalisation of matrix rows and of the initial basis: `la_ff_32.c` 30-54, 230-254,
`la_ff_16.c` 30-94, `la_ff_8.c` 30-94, `basis.c` 249-374. -/

namespace Verif.Normalize
open Verif.RowReduce Verif.ModInverse

/-- `normalize_sparse_matrix_row_ff_{8,16,32}` (la_ff_8.c 69-94, la_ff_16.c 69-94, la_ff_32.c 230-254) on
the coefficient array; `w` is the width of the product, `out` the width of a coefficient. The loop also
writes `row[0]`, which is then overwritten by 1.  An empty row is read out of bounds: `none`. -/
def normSparse (w out p : Nat) : List Nat → Option (List Nat)
  | [] => none
  | a :: r => (modInv w out a p).map fun inv =>
      1 :: r.map (fun b => b * inv.toNat % 2 ^ w % p % 2 ^ out)

/-- `normalize_initial_basis_ff_{8,16,32}` for one polynomial, basis.c 249-287, 290-328, 331-367: signed
64 bit products, C remainder, correction of negative remainders. -/
def normInit (w out p : Nat) : List Nat → Option (List Nat)
  | [] => none
  | a :: r => (modInv w out a p).bind fun inv =>
      (a :: r).mapM (fun b : Nat => (i64 ((b : Int) * inv)).map fun q =>
        let x := Int.tmod q p
        let y := if x < 0 then x + p else x
        (y % 2 ^ out).toNat)

/-- The guarded call in the echelon form, la_ff_32.c 2674-2677: only rows with `cf[0] != 1`. -/
def normRow (w out p : Nat) (r : Row) : Option Row :=
  match r with
  | [] => none
  | t :: _ => if t.2 ≠ 1 then (normSparse w out p (r.map Prod.snd)).map fun cs => (r.map Prod.fst).zip cs
              else some r

theorem modInv_nat {w out p : Nat} (hw : p < 2 ^ (w - 1)) (ho : p ≤ 2 ^ out) (hp : p.Prime) {a : Nat}
    (ha : 0 < a) (hap : a < p) :
    ∃ inv : Nat, modInv w out a p = some (inv : Int) ∧ inv < p ∧ inv * a % p = 1 := by
  have hg : Int.gcd (a : Int) (p : Int) = 1 := by
    rw [Int.gcd_natCast_natCast]
    exact (hp.coprime_iff_not_dvd.mpr (fun h => absurd (Nat.le_of_dvd ha h) (by omega))).symm
  obtain ⟨r, h1, h2, h3, h4⟩ := modInv_spec w out a p (by exact_mod_cast hp.one_lt)
    (by exact_mod_cast hw) (by exact_mod_cast ho) hg
  obtain ⟨k, rfl⟩ := Int.eq_ofNat_of_zero_le h2
  refine ⟨k, h1, by exact_mod_cast h3, ?_⟩
  have h5 : k * a ≡ 1 [MOD p] := by
    rw [← Int.natCast_modEq_iff]; push_cast; exact h4
  rw [Nat.ModEq, Nat.mod_eq_of_lt hp.one_lt] at h5
  exact h5

theorem mul_mod_small {w p : Nat} (hw : (p - 1) * (p - 1) < 2 ^ w) {b inv : Nat} (hb : b < p) (hi : inv < p) :
    b * inv % 2 ^ w = b * inv :=
  Nat.mod_eq_of_lt (lt_of_le_of_lt (Nat.mul_le_mul (by omega) (by omega)) hw)

theorem normSparse_spec {w out p : Nat} (hw : p < 2 ^ (w - 1)) (ho : p ≤ 2 ^ out)
    (hww : (p - 1) * (p - 1) < 2 ^ w) (hp : p.Prime) {a : Nat} {r : List Nat}
    (ha : 0 < a) (hr : ∀ b ∈ a :: r, b < p) :
    ∃ inv : Nat, inv < p ∧ inv * a % p = 1 ∧
      normSparse w out p (a :: r) = some ((a :: r).map (fun b => b * inv % p)) := by
  obtain ⟨inv, h1, h2, h3⟩ := modInv_nat hw ho hp ha (hr a List.mem_cons_self)
  refine ⟨inv, h2, h3, ?_⟩
  simp only [normSparse]
  rw [h1, Option.map_some, List.map_cons, Nat.mul_comm a inv, h3]
  congr 2
  apply List.map_congr_left
  intro b hb
  have hbp := hr b (List.mem_cons_of_mem _ hb)
  rw [Int.toNat_natCast, mul_mod_small hww hbp h2]
  exact Nat.mod_eq_of_lt (lt_of_lt_of_le (Nat.mod_lt _ hp.pos) ho)

theorem normInit_spec {w out p : Nat} (hw : p < 2 ^ (w - 1)) (ho : p ≤ 2 ^ out)
    (hww : (p - 1) * (p - 1) < 2 ^ 63) (hp : p.Prime) {a : Nat} {r : List Nat}
    (ha : 0 < a) (hr : ∀ b ∈ a :: r, b < p) :
    ∃ inv : Nat, inv < p ∧ inv * a % p = 1 ∧
      normInit w out p (a :: r) = some ((a :: r).map (fun b => b * inv % p)) := by
  obtain ⟨inv, h1, h2, h3⟩ := modInv_nat hw ho hp ha (hr a List.mem_cons_self)
  refine ⟨inv, h2, h3, ?_⟩
  simp only [normInit]
  rw [h1, Option.bind_some]
  generalize a :: r = l at hr
  induction l with
  | nil => rfl
  | cons b l ih =>
    have hb := hr b List.mem_cons_self
    have hlt : b * inv < 2 ^ 63 := lt_of_le_of_lt (Nat.mul_le_mul (by omega) (by omega)) hww
    have hi : i64 ((b : Int) * inv) = some ((b * inv : Nat) : Int) := by
      have : (b : Int) * inv = ((b * inv : Nat) : Int) := by push_cast; rfl
      rw [this]
      generalize b * inv = m at *
      apply i64_some
      · have : (0 : Int) ≤ m := by positivity
        linarith
      · exact_mod_cast hlt
    rw [List.mapM_cons, ih (fun b hb => hr b (List.mem_cons_of_mem _ hb)), hi]
    have e : Int.tmod ((b * inv : Nat) : Int) p = ((b * inv % p : Nat) : Int) := by
      rw [Int.tmod_eq_emod_of_nonneg (by positivity)]; push_cast; rfl
    have e2 : ¬ (((b * inv % p : Nat) : Int) < 0) := by omega
    have e3 : ((((b * inv % p : Nat) : Int)) % 2 ^ out).toNat = b * inv % p := by
      rw [Int.emod_eq_of_lt (by positivity), Int.toNat_natCast]
      have : b * inv % p < 2 ^ out := lt_of_lt_of_le (Nat.mod_lt _ hp.pos) ho
      exact_mod_cast this
    simp only [Option.map_some, e, if_neg e2, e3, List.map_cons]
    rfl

theorem zip_map_fst_map_snd (f : Nat → Nat) : ∀ r : Row,
    (r.map Prod.fst).zip ((r.map Prod.snd).map f) = r.map (fun t => (t.1, f t.2))
  | [] => rfl
  | t :: r => by
    rw [List.map_cons, List.map_cons, List.map_cons, List.zip_cons_cons, zip_map_fst_map_snd f r]; rfl

theorem rvec_scale (p : Nat) (u : Nat) : ∀ r : Row,
    rvec p (r.map (fun t => (t.1, t.2 * u % p))) = ((u : Nat) : ZMod p) • rvec p r
  | [] => by simp [rvec]
  | t :: r => by
    rw [List.map_cons, rvec_cons, rvec_cons, rvec_scale p u r, smul_add]
    congr 1
    rw [← Pi.single_smul]
    congr 1
    rw [ZMod.natCast_mod, Nat.cast_mul, smul_eq_mul, mul_comm]

/-- The row after the guarded normalisation: same columns, leading coefficient 1, coefficients in
`(0, p)`, a unit multiple of the row before. -/
theorem normRow_spec {w out p : Nat} (hw : p < 2 ^ (w - 1)) (ho : p ≤ 2 ^ out)
    (hww : (p - 1) * (p - 1) < 2 ^ w) (hp : p.Prime) {t : Nat × Nat} {r : Row}
    (hr : ∀ u ∈ t :: r, 0 < u.2 ∧ u.2 < p) :
    ∃ r' u, normRow w out p (t :: r) = some r' ∧ r'.map Prod.fst = (t :: r).map Prod.fst ∧
      (∃ r'', r' = (t.1, 1) :: r'') ∧ (∀ v ∈ r', 0 < v.2 ∧ v.2 < p) ∧
      rvec p r' = ((u : Nat) : ZMod p) • rvec p (t :: r) ∧ ((u : Nat) : ZMod p) ≠ 0 := by
  have hpf : Fact p.Prime := ⟨hp⟩
  unfold normRow
  by_cases h1 : t.2 = 1
  · refine ⟨t :: r, 1, by simp [h1], rfl, ⟨r, by rw [← h1]⟩, hr, by simp, by simp⟩
  · obtain ⟨inv, i1, i2, i3⟩ := normSparse_spec (r := r.map Prod.snd) hw ho hww hp
      (hr t List.mem_cons_self).1 (fun b hb => by
        rw [← List.map_cons] at hb
        obtain ⟨u, hu, rfl⟩ := List.mem_map.mp hb
        exact (hr u hu).2)
    have hinv0 : ((inv : Nat) : ZMod p) ≠ 0 := by
      intro h0
      rw [ZMod.natCast_eq_zero_iff] at h0
      have : p ∣ inv * t.2 := h0.mul_right _
      rw [Nat.dvd_iff_mod_eq_zero, i2] at this
      omega
    have e : (((t :: r).map Prod.fst).zip ((t.2 :: r.map Prod.snd).map (fun b => b * inv % p))) =
        (t :: r).map (fun t => (t.1, t.2 * inv % p)) := zip_map_fst_map_snd _ (t :: r)
    refine ⟨(t :: r).map (fun t => (t.1, t.2 * inv % p)), inv, ?_, ?_, ?_, ?_, rvec_scale p inv _, hinv0⟩
    · simp only []
      rw [if_pos h1, show (t :: r).map Prod.snd = t.2 :: r.map Prod.snd from rfl, i3, Option.map_some, e]
    · rw [List.map_map]; rfl
    · exact ⟨r.map (fun t => (t.1, t.2 * inv % p)), by rw [List.map_cons, Nat.mul_comm t.2 inv, i2]⟩
    · intro v hv
      obtain ⟨u, hu, rfl⟩ := List.mem_map.mp hv
      refine ⟨?_, Nat.mod_lt _ hp.pos⟩
      apply Nat.pos_of_ne_zero
      intro h0
      rw [← Nat.dvd_iff_mod_eq_zero, hp.dvd_mul] at h0
      rcases h0 with h0 | h0
      · have := Nat.le_of_dvd (hr u hu).1 h0
        have := (hr u hu).2
        omega
      · rw [← ZMod.natCast_eq_zero_iff] at h0
        exact hinv0 h0

end Verif.Normalize
