import Verif.ModInverse
import Verif.Spec.RealPoint
import Mathlib.Data.ZMod.Basic
import Mathlib.Algebra.Field.ZMod
import Mathlib.FieldTheory.Finite.Basic
import Mathlib.Algebra.Polynomial.Div
import Mathlib.Algebra.Polynomial.Derivative

/-!
The modular images of a parametrization, the check of a lifted one, the multi-modular loop.
Source: src/msolve/msolve.c 913-940, 1398-1490, 2254-2480.

FLINT's `nmod_poly_mul`, `nmod_poly_rem` are `*` and `%` of polynomials over `ZMod p`, the coefficient array of a polynomial
holds the values of its coefficients up to the degree.  GMP's `mpz_fdiv_ui`, `mpz_mod_ui` are `%`.
-/
namespace Verif.Lift
open Polynomial Verif.ModInverse

/-- `param_t`: `elim`, `denom`, the coordinates. -/
structure NParam (p : ℕ) where
  elim : (ZMod p)[X]
  denom : (ZMod p)[X]
  coords : List (ZMod p)[X]

/-- The length of the array of a polynomial. -/
noncomputable def len {p : ℕ} (f : (ZMod p)[X]) : ℕ := open Classical in if f = 0 then 0 else f.natDegree + 1

/-! ### Normalisation -/

/-- `n_gcdinv` (FLINT) for `a < p`, `p` prime: the inverse, zero for `a = 0`. -/
def gcdinv (a p : ℕ) : ℕ := ((a : ZMod p)⁻¹).val

/-- The entry `i` of the denominator, msolve.c 918-931: the products are computed with 64 bits. -/
noncomputable def denomEntry (p : ℕ) (elim : (ZMod p)[X]) (i : ℕ) : ℕ :=
  let inv := gcdinv (len elim - 1) p % p
  let d := (i + 1) * (elim.coeff (i + 1)).val % 2 ^ 64 % p
  inv * d % 2 ^ 64 % p

/-- `normalize_nmod_param`, msolve.c 913-938. -/
noncomputable def normalize (p : ℕ) [Fact p.Prime] (m : NParam p) : NParam p :=
  let d := ∑ i ∈ Finset.range (len m.elim - 1), C ((denomEntry p m.elim i : ℕ) : ZMod p) * X ^ i
  { m with denom := d, coords := m.coords.map fun c => c * d % m.elim }

/-! ### The check -/

/-- `check_unit_mpz_nmod_poly`, msolve.c 1401-1416: zero, or one more than the first index with a difference. -/
def checkUnit (len : ℕ) (f : ℕ → ℤ) (g : ℕ → ℕ) (p : ℕ) : Option ℕ :=
  match modInv32 (f (len - 1) % p) p with
  | none => none
  | some lc =>
    some (match (List.range len).find? fun i => decide ((f i % p) * lc % 2 ^ 64 % p ≠ g i) with
      | none => 0
      | some i => i + 1)

/-- `mpz_invert`; `junk` stands for what is in the variable when there is no inverse. -/
def mpzInvert (junk a : ℤ) (p : ℕ) : ℤ := if Int.gcd a p = 1 then (((a : ZMod p)⁻¹).val : ℤ) else junk

/-- `check_param_nmod_poly`, msolve.c 1418-1444. -/
def checkCoord (junk : ℤ) (len : ℕ) (f : ℕ → ℤ) (den lcelim : ℤ) (nbsol : ℕ) (g : ℕ → ℕ) (p : ℕ) : Bool :=
  if len = 0 then false
  else
    let inv := mpzInvert junk (lcelim * den * nbsol) p % p
    (List.range len).any fun i => decide (f i * inv % p ≠ g i % p)

open Verif.RealPoints in
/-- `check_param_modular`, msolve.c 1451-1490: the returned value (`true`: the lifted parametrization has to be computed
again).  The flags `is_lifted` and those of `trace_det`, cleared on failure, are left out. -/
noncomputable def checkModular {p : ℕ} (junk : ℤ) (m : Param) (g : NParam p) : Option Bool :=
  match checkUnit (m.nsols + 1) m.elim (fun i => (g.elim.coeff i).val) p with
  | none => none
  | some 0 =>
    some ((m.coords.zip g.coords).any fun q =>
      checkCoord junk (len q.2) q.1.c q.1.cf (m.elim m.nsols) m.nsols (fun i => (q.2.coeff i).val) p)
  | some _ => some true

/-! ### The multi-modular loop -/

/-- The variables of the loop: `M` stands for the parametrization under construction with all that the reconstruction
and the check change; `used` are the primes given to the reconstruction. -/
structure St (M : Type*) where
  rerun : Bool
  mcheck : Bool
  nprimes : ℕ
  nbad : ℕ
  m : M
  used : List ℕ

/-- One thread of a round, msolve.c 2395-2441, with its prime and, unless the prime is bad, the modular image; `chk` is
`check_param_modular`, `clear` what it changes on failure, `recon` is `new_rational_reconstruction`.  `none`: the return
value -4. -/
def thread {M I : Type*} (chk : M → I → Bool) (clear : M → I → M) (recon : Bool → M → I → Bool × M) (doit : Bool)
    (s : St M) (t : ℕ × Option I) : Option (St M) :=
  match t.2 with
  | none => if s.nprimes < s.nbad + 1 then none else some { s with nbad := s.nbad + 1 }
  | some g =>
    let mcheck := if s.rerun = false then chk s.m g else s.mcheck
    let m := if s.rerun = false ∧ mcheck = true then clear s.m g else s.m
    if mcheck = true then
      let r := recon doit m g
      some { s with rerun := !r.1, mcheck := mcheck, m := r.2, used := t.1 :: s.used, nprimes := s.nprimes + 1 }
    else some { s with mcheck := mcheck, m := m, nprimes := s.nprimes + 1 }

/-- A round, msolve.c 2394-2442. -/
def round {M I : Type*} (chk : M → I → Bool) (clear : M → I → M) (recon : Bool → M → I → Bool × M) (doit : Bool) :
    St M → List (ℕ × Option I) → Option (St M)
  | s, [] => some s
  | s, t :: l =>
    match thread chk clear recon doit s t with
    | none => none
    | some s => round chk clear recon doit s l

inductive Outcome (M : Type*) where
  | running (s : St M)
  | fail
  | done (s : St M)

/-- The loop, msolve.c 2254-2467, on the images of the successive rounds; the first component of a round is `doit`
(it depends on timings). -/
def lift {M I : Type*} (chk : M → I → Bool) (clear : M → I → M) (recon : Bool → M → I → Bool × M) :
    St M → List (Bool × List (ℕ × Option I)) → Outcome M
  | s, [] => if s.rerun = true ∨ s.mcheck = true then .running s else .done s
  | s, r :: l =>
    if s.rerun = true ∨ s.mcheck = true then
      match round chk clear recon r.1 s r.2 with
      | none => .fail
      | some s => lift chk clear recon s l
    else .done s

/-- The state before the loop, msolve.c 2209-2243. -/
def start {M : Type*} (m : M) (primeinit : ℕ) : St M := ⟨true, true, 1, 0, m, [primeinit]⟩

/-! ### Lemmas -/

/-- What holds after the threads `done`. -/
structure LoopInv {M I : Type*} (chk : M → I → Bool) (p0 : ℕ) (s : St M) (ts : List (ℕ × Option I)) : Prop where
  used : ∀ q ∈ s.used, q = p0 ∨ ∃ g, (q, some g) ∈ ts
  flag : s.rerun = true → s.mcheck = true
  ok : s.mcheck = false → ∃ pre q g post, ts = pre ++ (q, some g) :: post ∧ (∀ t ∈ post, t.2 = none) ∧ chk s.m g = false ∧
    ∀ q' ∈ s.used, q' = p0 ∨ ∃ g, (q', some g) ∈ pre

theorem thread_inv {M I : Type*} {chk : M → I → Bool} {clear : M → I → M} {recon : Bool → M → I → Bool × M} {doit : Bool}
    {p0 : ℕ} {s s' : St M} {ts : List (ℕ × Option I)} {t : ℕ × Option I} (h : LoopInv chk p0 s ts)
    (hs : thread chk clear recon doit s t = some s') : LoopInv chk p0 s' (ts ++ [t]) := by
  obtain ⟨q, o⟩ := t
  have mono : ∀ q' ∈ s.used, q' = p0 ∨ ∃ g, (q', some g) ∈ ts ++ [(q, o)] := fun q' hq' =>
    (h.used q' hq').imp id fun ⟨g, hg⟩ => ⟨g, List.mem_append_left _ hg⟩
  cases o with
  | none =>
    simp only [thread] at hs
    split at hs
    · cases hs
    · cases hs
      refine ⟨mono, h.flag, fun hm => ?_⟩
      obtain ⟨pre, q1, g, post, h1, h2, h3, h4⟩ := h.ok hm
      refine ⟨pre, q1, g, post ++ [(q, none)], by rw [h1]; simp, fun t ht => ?_, h3, h4⟩
      rcases List.mem_append.mp ht with ht | ht
      · exact h2 t ht
      · rw [List.mem_singleton.mp ht]
  | some g =>
    simp only [thread] at hs
    cases hr : s.rerun with
    | true =>
      have hm := h.flag hr
      simp only [hr, hm, if_true, if_false, Bool.true_eq_false, false_and] at hs
      cases hs
      refine ⟨fun q' hq' => ?_, fun _ => rfl, fun hf => by simp at hf⟩
      rcases List.mem_cons.mp hq' with rfl | hq'
      · exact Or.inr ⟨g, by simp⟩
      · exact mono q' hq'
    | false =>
      simp only [hr, if_true, true_and] at hs
      cases hc : chk s.m g with
      | true =>
        simp only [hc, if_true] at hs
        cases hs
        refine ⟨fun q' hq' => ?_, fun _ => rfl, fun hf => by simp at hf⟩
        rcases List.mem_cons.mp hq' with rfl | hq'
        · exact Or.inr ⟨g, by simp⟩
        · exact mono q' hq'
      | false =>
        simp only [hc, Bool.false_eq_true, if_false] at hs
        cases hs
        exact ⟨mono, fun h' => by simp at h', fun _ => ⟨ts, q, g, [], by simp, by simp, hc, h.used⟩⟩

theorem round_inv {M I : Type*} {chk : M → I → Bool} {clear : M → I → M} {recon : Bool → M → I → Bool × M} {doit : Bool}
    {p0 : ℕ} : ∀ (l : List (ℕ × Option I)) {s s' : St M} {ts : List (ℕ × Option I)}, LoopInv chk p0 s ts →
    round chk clear recon doit s l = some s' → LoopInv chk p0 s' (ts ++ l)
  | [], s, s', ts, h, hs => by
    cases hs; simpa using h
  | t :: l, s, s', ts, h, hs => by
    rw [round] at hs
    cases ht : thread chk clear recon doit s t with
    | none => rw [ht] at hs; cases hs
    | some s1 =>
      rw [ht] at hs
      have := round_inv l (thread_inv h ht) hs
      simpa using this

theorem lift_inv {M I : Type*} {chk : M → I → Bool} {clear : M → I → M} {recon : Bool → M → I → Bool × M} {p0 : ℕ} :
    ∀ (rs : List (Bool × List (ℕ × Option I))) {s s' : St M} {ts : List (ℕ × Option I)}, LoopInv chk p0 s ts →
    lift chk clear recon s rs = .done s' → ∃ n, LoopInv chk p0 s' (ts ++ (rs.take n).flatMap Prod.snd) ∧ s'.rerun = false ∧
      s'.mcheck = false
  | [], s, s', ts, h, hs => by
    rw [lift] at hs
    split at hs
    · cases hs
    · rename_i hn
      cases hs
      push Not at hn
      exact ⟨0, by simpa using h, by simpa using hn.1, by simpa using hn.2⟩
  | r :: l, s, s', ts, h, hs => by
    rw [lift] at hs
    split at hs
    · cases hr : round chk clear recon r.1 s r.2 with
      | none => rw [hr] at hs; cases hs
      | some s1 =>
        rw [hr] at hs
        obtain ⟨n, h1, h2⟩ := lift_inv l (round_inv r.2 h hr) hs
        exact ⟨n + 1, by simpa using h1, h2⟩
    · rename_i hn
      cases hs
      push Not at hn
      exact ⟨0, by simpa using h, by simpa using hn.1, by simpa using hn.2⟩

theorem start_inv {M I : Type*} (chk : M → I → Bool) (m : M) (p0 : ℕ) : LoopInv chk p0 (start m p0) [] :=
  ⟨fun q hq => Or.inl (by simpa [start] using hq), fun _ => rfl, fun h => by simp [start] at h⟩

section
variable {p : ℕ} [hp : Fact p.Prime]

theorem len_eq {f : (ZMod p)[X]} (h : f ≠ 0) : len f = f.natDegree + 1 := by unfold len; rw [if_neg h]

theorem len_zero : len (0 : (ZMod p)[X]) = 0 := by unfold len; rw [if_pos rfl]

theorem coeff_len {f : (ZMod p)[X]} {i : ℕ} (h : len f ≤ i) : f.coeff i = 0 := by
  by_cases h0 : f = 0
  · rw [h0, coeff_zero]
  · rw [len_eq h0] at h
    exact coeff_eq_zero_of_natDegree_lt (by omega)

theorem denomEntry_eq (hlt : p < 2 ^ 32) {elim : (ZMod p)[X]} (hlen : len elim < 2 ^ 32) {i : ℕ} (hi : i + 1 < len elim) :
    ((denomEntry p elim i : ℕ) : ZMod p) = ((elim.natDegree : ℕ) : ZMod p)⁻¹ * elim.derivative.coeff i := by
  have hpos : 0 < p := hp.out.pos
  have h0 : elim ≠ 0 := by rintro rfl; rw [len_zero] at hi; omega
  have hl : len elim - 1 = elim.natDegree := by rw [len_eq h0]; omega
  unfold denomEntry
  simp only
  have hv : (elim.coeff (i + 1)).val < p := ZMod.val_lt _
  have h1 : (i + 1) * (elim.coeff (i + 1)).val < 2 ^ 64 := by
    calc (i + 1) * (elim.coeff (i + 1)).val ≤ 2 ^ 32 * (2 ^ 32 - 1) := Nat.mul_le_mul (by omega) (by omega)
      _ < 2 ^ 64 := by norm_num
  rw [Nat.mod_eq_of_lt h1]
  have h2 : gcdinv (len elim - 1) p % p < 2 ^ 32 := lt_trans (Nat.mod_lt _ hpos) hlt
  have h3 : (i + 1) * (elim.coeff (i + 1)).val % p < 2 ^ 32 := lt_trans (Nat.mod_lt _ hpos) hlt
  have h4 : gcdinv (len elim - 1) p % p * ((i + 1) * (elim.coeff (i + 1)).val % p) < 2 ^ 64 := by
    calc _ ≤ (2 ^ 32 - 1) * (2 ^ 32 - 1) := Nat.mul_le_mul (by omega) (by omega)
      _ < 2 ^ 64 := by norm_num
  rw [Nat.mod_eq_of_lt h4, ZMod.natCast_mod, Nat.cast_mul, ZMod.natCast_mod, ZMod.natCast_mod, hl, gcdinv,
    coeff_derivative]
  simp only [ZMod.natCast_val, ZMod.cast_id', id_eq, Nat.cast_mul, Nat.cast_add, Nat.cast_one]
  ring

theorem normalize_denom (hlt : p < 2 ^ 32) (m : NParam p) (hlen : len m.elim < 2 ^ 32) :
    (normalize p m).denom = C (((m.elim.natDegree : ℕ) : ZMod p)⁻¹) * m.elim.derivative := by
  show ∑ i ∈ Finset.range (len m.elim - 1), C ((denomEntry p m.elim i : ℕ) : ZMod p) * X ^ i = _
  ext j
  rw [finsetSum_coeff, coeff_C_mul]
  simp only [coeff_C_mul, coeff_X_pow]
  by_cases hj : j < len m.elim - 1
  · rw [Finset.sum_eq_single j]
    · rw [if_pos rfl, mul_one, denomEntry_eq hlt hlen (by omega)]
    · intro i _ hij; rw [if_neg (Ne.symm hij), mul_zero]
    · intro h; exact absurd (Finset.mem_range.mpr hj) h
  · rw [Finset.sum_eq_zero]
    · rw [coeff_derivative, coeff_len (by omega), zero_mul, mul_zero]
    · intro i hi
      rw [if_neg (by have := Finset.mem_range.mp hi; omega), mul_zero]

/-- The inverse of zero is computed as zero. -/
theorem modInv32_zero (q : ℤ) : modInv32 0 q = some 0 := by
  unfold modInv32 modInv
  simp [loop]

theorem cast_emod (a : ℤ) : ((a % (p : ℤ) : ℤ) : ZMod p) = (a : ZMod p) := by
  rw [ZMod.intCast_eq_intCast_iff]; exact Int.mod_modEq a p

/-- The inverse of the leading coefficient. -/
theorem modInv32_val (hlt : p < 2 ^ 32) (a : ℤ) : ∃ r : ℤ, modInv32 (a % p) p = some r ∧ 0 ≤ r ∧ r < p ∧
    (r : ZMod p) = (a : ZMod p)⁻¹ := by
  have hp1 : (1 : ℤ) < p := by exact_mod_cast hp.out.one_lt
  by_cases h : (a : ZMod p) = 0
  · have h0 : a % (p : ℤ) = 0 := Int.emod_eq_zero_of_dvd ((ZMod.intCast_zmod_eq_zero_iff_dvd a p).mp h)
    rw [h0, modInv32_zero, h]
    exact ⟨0, rfl, le_rfl, by omega, by simp⟩
  · have hg : Int.gcd (a % (p : ℤ)) p = 1 := by
      rw [Int.gcd_comm, ← Int.isCoprime_iff_gcd_eq_one,
        Prime.coprime_iff_not_dvd (Nat.prime_iff_prime_int.mp hp.out)]
      rwa [← ZMod.intCast_zmod_eq_zero_iff_dvd, cast_emod]
    obtain ⟨r, h1, h2, h3, h4⟩ := modInv_spec 64 32 (a % p) p hp1 (by norm_num; omega) (by omega) hg
    refine ⟨r, h1, h2, h3, ?_⟩
    have h5 : ((r * (a % (p : ℤ)) : ℤ) : ZMod p) = ((1 : ℤ) : ZMod p) := (ZMod.intCast_eq_intCast_iff _ _ _).mpr h4
    rw [Int.cast_mul, cast_emod, Int.cast_one] at h5
    exact eq_inv_of_mul_eq_one_left h5

/-- One comparison. -/
theorem unit_entry (hlt : p < 2 ^ 32) (a : ℤ) {r : ℤ} (h0 : 0 ≤ r) (hr : r < p) (x : ZMod p) :
    (a % p) * r % 2 ^ 64 % p = (x.val : ℤ) ↔ (a : ZMod p) * r = x := by
  have hpos : (0 : ℤ) < p := by exact_mod_cast hp.out.pos
  have h1 := Int.emod_nonneg a hpos.ne'
  have h2 := Int.emod_lt_of_pos a hpos
  have hlt' : (p : ℤ) < 2 ^ 32 := by exact_mod_cast hlt
  have h3 : a % p * r < 2 ^ 64 := by nlinarith
  rw [Int.emod_eq_of_lt (mul_nonneg h1 h0) h3]
  constructor
  · intro h
    have : ((a % (p : ℤ) * r % p : ℤ) : ZMod p) = ((x.val : ℤ) : ZMod p) := by rw [h]
    rw [cast_emod, Int.cast_mul, cast_emod] at this
    simpa using this
  · intro h
    have : ((a % (p : ℤ) * r : ℤ) : ZMod p) = ((x.val : ℤ) : ZMod p) := by
      rw [Int.cast_mul, cast_emod, h]; simp
    rw [ZMod.intCast_eq_intCast_iff] at this
    rw [this.eq]
    exact Int.emod_eq_of_lt (by positivity) (by exact_mod_cast ZMod.val_lt x)

theorem checkUnit_eq (hlt : p < 2 ^ 32) (n : ℕ) (f : ℕ → ℤ) (g : ℕ → ZMod p) :
    ∃ c, checkUnit n f (fun i => (g i).val) p = some c ∧
      (c = 0 → ∀ i < n, (f i : ZMod p) * (f (n - 1) : ZMod p)⁻¹ = g i) ∧
      (c ≠ 0 → c - 1 < n ∧ (f (c - 1) : ZMod p) * (f (n - 1) : ZMod p)⁻¹ ≠ g (c - 1) ∧
        ∀ i < c - 1, (f i : ZMod p) * (f (n - 1) : ZMod p)⁻¹ = g i) := by
  obtain ⟨r, h1, h2, h3, h4⟩ := modInv32_val hlt (f (n - 1))
  unfold checkUnit
  rw [h1]
  refine ⟨_, rfl, ?_⟩
  have he := fun i => unit_entry hlt (f i) h2 h3 (g i)
  rw [h4] at he
  cases hf : (List.range n).find? fun i => decide ((f i % p) * r % 2 ^ 64 % p ≠ ((g i).val : ℤ)) with
  | none =>
    refine ⟨fun _ i hi => ?_, fun h => absurd rfl h⟩
    have := List.find?_eq_none.mp hf i (List.mem_range.mpr hi)
    rw [decide_eq_true_iff, not_not] at this
    exact (he i).mp this
  | some i =>
    refine ⟨fun h => by simp at h, fun _ => ?_⟩
    simp only [Nat.add_sub_cancel]
    have h5 := List.find?_eq_some_iff_getElem.mp hf
    obtain ⟨h6, j, hj, h7, h8⟩ := h5
    rw [List.getElem_range] at h7
    subst h7
    rw [List.length_range] at hj
    refine ⟨hj, ?_, fun i hi => ?_⟩
    · rw [decide_eq_true_iff] at h6
      exact fun h => h6 ((he j).mpr h)
    · have := h8 i hi
      rw [List.getElem_range] at this
      simp only [Bool.not_eq_true', decide_eq_false_iff_not, not_not] at this
      exact (he i).mp this

/-- The comparison with a monic image: the leading coefficient is then invertible. -/
theorem checkUnit_zero (hlt : p < 2 ^ 32) (n : ℕ) (f : ℕ → ℤ) (g : ℕ → ZMod p) (hg : g n = 1) :
    checkUnit (n + 1) f (fun i => (g i).val) p = some 0 ↔
      (f n : ZMod p) ≠ 0 ∧ ∀ i ≤ n, (f i : ZMod p) = f n * g i := by
  obtain ⟨c, h1, h2, h3⟩ := checkUnit_eq hlt (n + 1) f g
  rw [h1, Nat.add_sub_cancel] at *
  constructor
  · intro h
    obtain rfl : c = 0 := by simpa using h
    have h4 := h2 rfl n (by omega)
    have hne : (f n : ZMod p) ≠ 0 := by
      intro h0
      rw [h0, zero_mul, hg] at h4
      exact zero_ne_one h4
    refine ⟨hne, fun i hi => ?_⟩
    rw [← h2 rfl i (by omega)]
    field_simp
  · rintro ⟨hne, h⟩
    by_contra hc
    obtain ⟨h4, h5, _⟩ := h3 (by intro h; exact hc (by rw [h]))
    apply h5
    rw [h (c - 1) (by omega)]
    field_simp

theorem checkCoord_eq (junk : ℤ) (n : ℕ) (f : ℕ → ℤ) (den lcelim : ℤ) (nbsol : ℕ) (g : ℕ → ZMod p)
    (hne : ((lcelim * den * nbsol : ℤ) : ZMod p) ≠ 0) :
    checkCoord junk n f den lcelim nbsol (fun i => (g i).val) p = false ↔
      ∀ i < n, (f i : ZMod p) = lcelim * den * nbsol * g i := by
  unfold checkCoord
  split
  · rename_i h; subst h; simp
  have hcop : Int.gcd (lcelim * den * nbsol) p = 1 := by
    rw [Int.gcd_comm, ← Int.isCoprime_iff_gcd_eq_one, Prime.coprime_iff_not_dvd (Nat.prime_iff_prime_int.mp hp.out)]
    rwa [Ne, ZMod.intCast_zmod_eq_zero_iff_dvd] at hne
  have hc : ((lcelim * den * nbsol : ℤ) : ZMod p) = lcelim * den * nbsol := by push_cast; rfl
  rw [mpzInvert, if_pos hcop]
  simp only
  rw [List.any_eq_false]
  have key : ∀ i, (decide (f i * ((((lcelim * den * nbsol : ℤ) : ZMod p)⁻¹.val : ℤ) % p) % p ≠ ((g i).val : ℤ) % p) = false) ↔
      (f i : ZMod p) = lcelim * den * nbsol * g i := by
    intro i
    rw [decide_eq_false_iff_not, not_not, ← Int.ModEq, ← ZMod.intCast_eq_intCast_iff, Int.cast_mul, cast_emod]
    simp only [ZMod.intCast_cast, ZMod.natCast_val, ZMod.cast_id', id_eq]
    rw [← hc, ← div_eq_mul_inv, div_eq_iff hne, mul_comm (g i)]
  constructor
  · intro h i hi
    exact (key i).mp (by simpa using h i (List.mem_range.mpr hi))
  · intro h i hi
    have := (key i).mpr (h i (List.mem_range.mp hi))
    simpa using this

end

end Verif.Lift
