import Verif.ModInverse
import Verif.Barrett
import Verif.MatVec
import Verif.CRT
import Verif.RatRecon
import Verif.VecRecon
import Verif.Primes
import Mathlib.Data.Nat.Prime.Basic
import Mathlib.NumberTheory.LucasLehmer

/-! Property theorems for the modular arithmetic layer: C01 – C06 and C46. -/

namespace Verif.Props

theorem prime_2147483647 : Nat.Prime 2147483647 := by
  have h : (mersenne 31).Prime := lucas_lehmer_sufficiency _ (by norm_num) (by norm_num)
  have e : mersenne 31 = 2147483647 := by decide +kernel
  rwa [e] at h

/-! ## C01: modular inverse -/

open Verif.ModInverse in
/-- C01, 32 bit variant: for every modulus `1 < p < 2^32` and every `val` (any integer, in
particular any `int64_t`) coprime to `p`, the routine terminates without signed overflow and
returns the canonical residue `r` with `r * val ≡ 1 (mod p)`. -/
theorem C01_modInverse32 (val p : Int) (hp1 : 1 < p) (hp : p < 2 ^ 32) (hg : Int.gcd val p = 1) :
    ∃ r, modInv32 val p = some r ∧ 0 ≤ r ∧ r < p ∧ r * val ≡ 1 [ZMOD p] :=
  modInv_spec 64 32 val p hp1 (by norm_num; omega) (by omega) hg

open Verif.ModInverse in
/-- C01, 16 bit variant (`p` is a `uint16_t`). -/
theorem C01_modInverse16 (val p : Int) (hp1 : 1 < p) (hp : p < 2 ^ 16) (hg : Int.gcd val p = 1) :
    ∃ r, modInv16 val p = some r ∧ 0 ≤ r ∧ r < p ∧ r * val ≡ 1 [ZMOD p] :=
  modInv_spec 32 16 val p hp1 (by norm_num; omega) (by omega) hg

open Verif.ModInverse in
/-- C01, 8 bit variant (`p` is a `uint8_t`). -/
theorem C01_modInverse8 (val p : Int) (hp1 : 1 < p) (hp : p < 2 ^ 8) (hg : Int.gcd val p = 1) :
    ∃ r, modInv8 val p = some r ∧ 0 ≤ r ∧ r < p ∧ r * val ≡ 1 [ZMOD p] :=
  modInv_spec 16 8 val p hp1 (by norm_num; omega) (by omega) hg

example : (1 : Int) < 2147483647 ∧ (2147483647 : Int) < 2 ^ 32 ∧ Int.gcd (-12345) 2147483647 = 1 := by
  decide +kernel
example : (1 : Int) < 65521 ∧ (65521 : Int) < 2 ^ 16 ∧ Int.gcd 65520 65521 = 1 := by decide +kernel
example : (1 : Int) < 251 ∧ (251 : Int) < 2 ^ 8 ∧ Int.gcd 77 251 = 1 := by decide +kernel

/-! ## C02: Barrett reduction -/

open Verif.Barrett in
/-- C02: with the documented inverse `floor(2^62/p)`, for every `2^30 < p < 2^31` and every
accumulator `n ≤ 2^62` the reduction returns `n mod p`. -/
theorem C02_barrett (n p : Nat) (hp : 2 ^ 30 < p) (hp2 : p < 2 ^ 31) (hn : n ≤ 2 ^ 62) :
    MODRED32 n p (2 ^ 62 / p) = n % p := MODRED32_correct n p hp hp2 hn

open Verif.Barrett in
/-- C02: beyond `2^62`, up to `p * 2^32`, two correction steps need not suffice, but the result is
still congruent and below `2p`. -/
theorem C02_barrett_extended (n p : Nat) (hp : 2 ^ 30 < p) (hp2 : p < 2 ^ 31) (hn : n < p * 2 ^ 32) :
    MODRED32 n p (2 ^ 62 / p) % p = n % p ∧ MODRED32 n p (2 ^ 62 / p) < 2 * p :=
  MODRED32_weak n p hp hp2 hn

open Verif.Barrett in
/-- C02: the recursive variant is exact on every 64 bit accumulator. -/
theorem C02_barrett_rec (n p : Nat) (hp : 2 ^ 30 < p) (hp2 : p < 2 ^ 31) (hn : n < 2 ^ 64) :
    MODRED32rec n p (2 ^ 62 / p) = some (n % p) := MODRED32rec_correct p hp hp2 n hn

open Verif.Barrett in
/-- C02: reduced addition. -/
theorem C02_addmod (a b p : Nat) (hp : 2 ^ 30 < p) (hp2 : p < 2 ^ 31) (hab : a + b ≤ 2 ^ 62) :
    ADDMODRED32 a b p (2 ^ 62 / p) = (a + b) % p := ADDMODRED32_correct a b p hp hp2 hab

open Verif.Barrett in
/-- C02: multiplication with a precomputed quotient `floor(y * 2^32 / p)`. -/
theorem C02_mulmod (x y p : Nat) (hp0 : 0 < p) (hy : y < p) (hx : x < 2 ^ 32) :
    mulModBarrett x y p (y * 2 ^ 32 / p) = ((x * y % p : Nat) : Int) :=
  mulModBarrett_correct x y p hp0 hy hx

open Verif.Barrett in
/-- The inverse passed by the block Wiedemann path of the code is `2 ^ (62/p)` with `^` the C
exclusive or, i.e. the constant 2 for every prime above 62: with it the reduction is not a
reduction. -/
theorem C02_preinv_as_written_wrong :
    ∃ n p : Nat, Nat.Prime p ∧ 2 ^ 30 < p ∧ p < 2 ^ 31 ∧ n ≤ 2 ^ 62 ∧
      MODRED32 n p (preinvAsWritten p) ≠ n % p :=
  ⟨3 * 2147483647, 2147483647, prime_2147483647, by norm_num, by norm_num, by norm_num,
    by decide +kernel⟩

open Verif.Barrett in
/-- For every modulus above 62 the value as written is the constant 2. -/
theorem C02_preinv_as_written (p : Nat) (hp : 62 < p) : preinvAsWritten p = 2 := by
  unfold preinvAsWritten
  rw [Nat.div_eq_of_lt hp]
  rfl

example : 2 ^ 30 < 2147483647 ∧ 2147483647 < 2 ^ 31 ∧ 2147483646 * 2147483646 ≤ 2 ^ 62 := by decide

/-! ## C03: Chinese remaindering -/

open Verif.CRT in
/-- C03: one step returns the representative of the prescribed interval with both residues. -/
theorem C03_crt_step (inv : Int → Int → Int) (hinv : InvSpec inv) (r1 m1 r2 m2 : Int) (sign : Bool)
    (hm1 : 0 < m1) (hm2 : 1 < m2) (hco : Int.gcd m1 m2 = 1) (hr1 : -m1 ≤ r1) (hr1' : r1 < m1) :
    ∃ x, crt inv r1 m1 r2 m2 (m1 * m2) sign = some x ∧
      x ≡ r1 [ZMOD m1] ∧ x ≡ r2 [ZMOD m2] ∧
      (sign = false → 0 ≤ x ∧ x < m1 * m2) ∧
      (sign = true → -(m1 * m2) < 2 * x ∧ 2 * x ≤ m1 * m2) :=
  crt_spec inv hinv r1 m1 r2 m2 sign hm1 hm2 hco hr1 hr1'

open Verif.CRT in
/-- C03: running the step over any list of pairwise coprime moduli, starting from the first
residue, recovers every integer of the range from its residues. -/
theorem C03_crt_recovers (inv : Int → Int → Int) (hinv : InvSpec inv) (p0 : Int) (ps : List Int)
    (hp : ∀ p ∈ p0 :: ps, 1 < p) (hco : (p0 :: ps).Pairwise (fun a b => Int.gcd a b = 1))
    (z : Int) (hz0 : 0 ≤ z) (hz1 : z < (p0 :: ps).prod) :
    crtRun inv false (z % p0, p0) (ps.map (fun p => (z % p, p))) = some (z, (p0 :: ps).prod) := by
  have hp0 := hp p0 List.mem_cons_self
  rw [List.pairwise_cons] at hco
  have hsnd : (ps.map (fun p => (z % p, p))).map Prod.snd = ps := by
    rw [List.map_map]; exact List.map_id' ps
  obtain ⟨y, y0, y1, y2, y3, -⟩ := crtRun_spec inv hinv false (ps.map (fun p => (z % p, p)))
    (z % p0) p0 (by omega) (by have := Int.emod_nonneg z (show p0 ≠ 0 by omega); omega)
    (Int.emod_lt_of_pos _ (by omega))
    (by
      intro rp hrp
      obtain ⟨p, hp1, rfl⟩ := List.mem_map.mp hrp
      have := hp p (List.mem_cons_of_mem _ hp1)
      exact ⟨this, Int.emod_nonneg _ (show p ≠ 0 by omega), Int.emod_lt_of_pos _ (show 0 < p by omega)⟩)
    (by
      intro rp hrp
      obtain ⟨p, hp1, rfl⟩ := List.mem_map.mp hrp
      exact hco.1 p hp1)
    (by
      rw [List.pairwise_map]
      exact hco.2)
    (fun _ => Int.emod_nonneg _ (by omega)) (by simp)
  rw [hsnd] at y0 y3
  rw [y0]
  have key : ∀ (l : List Int), l.Pairwise (fun a b => Int.gcd a b = 1) →
      (∀ p ∈ l, p ∣ z - y) → l.prod ∣ z - y := by
    intro l
    induction l with
    | nil => intros; simp
    | cons a l ih =>
      intro h1 h2
      rw [List.pairwise_cons] at h1
      rw [List.prod_cons]
      have hc : IsCoprime a l.prod := by
        have : ∀ (l : List Int), (∀ b ∈ l, Int.gcd a b = 1) → IsCoprime a l.prod := by
          intro l
          induction l with
          | nil => intro _; simpa using isCoprime_one_right
          | cons b l ih =>
            intro h
            rw [List.prod_cons]
            exact IsCoprime.mul_right (Int.isCoprime_iff_gcd_eq_one.mpr (h b List.mem_cons_self))
              (ih (fun c hc => h c (List.mem_cons_of_mem _ hc)))
        exact this l h1.1
      exact IsCoprime.mul_dvd hc (h2 a List.mem_cons_self)
        (ih h1.2 (fun p hp => h2 p (List.mem_cons_of_mem _ hp)))
  have hdvd : (p0 :: ps).prod ∣ z - y := by
    apply key _ (List.pairwise_cons.mpr hco)
    intro p hpm
    rcases List.mem_cons.mp hpm with rfl | hpm
    · exact (Int.modEq_iff_dvd).mp (y1.trans (Int.mod_modEq _ _))
    · have := y2 (z % p, p) (List.mem_map.mpr ⟨p, hpm, rfl⟩)
      exact (Int.modEq_iff_dvd).mp (this.trans (Int.mod_modEq _ _))
  obtain ⟨y5, y6⟩ := y3 rfl
  rw [List.prod_cons] at *
  have : z - y = 0 := by
    apply Int.eq_zero_of_abs_lt_dvd hdvd
    rw [abs_lt]; constructor <;> omega
  have : z = y := by omega
  rw [this]

example : ∃ inv, Verif.CRT.InvSpec inv := by
  refine ⟨fun a m => Int.gcdA a m, ?_⟩
  intro a m h1 h2 h3 h4
  have := Int.gcd_eq_gcd_ab a m
  rw [h4] at this
  have e : Int.gcdA a m * a - 1 = -(m * Int.gcdB a m) := by push_cast at this; linarith
  have : m ∣ 1 - Int.gcdA a m * a := ⟨Int.gcdB a m, by linarith⟩
  exact (Int.modEq_iff_dvd).mpr this
example : ([7, 11, 1073741827] : List Int).Pairwise (fun a b => Int.gcd a b = 1) := by decide +kernel

/-! ## C04: rational reconstruction -/

open Verif.RatRecon in
/-- C04, soundness and completeness of `ratrecon`, for every (possibly negative or unreduced)
residue `u` and all bounds. -/
theorem C04_ratrecon (u m N D : Int) (hm : 1 < m) (hN : 0 ≤ N) :
    (∀ n d, ratrecon u m N D = some ((n, d), true) →
      d * u ≡ n [ZMOD m] ∧ |n| ≤ N ∧ 0 < d ∧ d ≤ D ∧ Int.gcd n d = 1) ∧
    (2 * N * D < m → ∀ n d, |n| ≤ N → 0 < d → d ≤ D → Int.gcd n d = 1 → d * u ≡ n [ZMOD m] →
      ratrecon u m N D = some ((n, d), true)) := by
  constructor
  · intro n d h
    obtain ⟨a, b⟩ := Verif.VecRecon.ratrecon_sound u m N D hm hN _ h
    exact ⟨((Int.modEq_iff_dvd).mpr a).symm, b⟩
  · intro hND n d h1 h2 h3 h4 h5
    exact Verif.VecRecon.ratrecon_complete u m N D hm hN hND n d h1 h2 h3 h4
      ((Int.modEq_iff_dvd).mp h5.symm)

open Verif.RatRecon in
/-- C04 for the variant with a guessed denominator `g`: it reconstructs `u * g`. -/
theorem C04_ratreconwden (u m g N D : Int) (hm : 1 < m) (hN : 0 ≤ N) :
    (∀ n d, ratreconwden u m g N D = some ((n, d), true) →
      d * (u * g) ≡ n [ZMOD m] ∧ |n| ≤ N ∧ 0 < d ∧ d ≤ D ∧ Int.gcd n d = 1) ∧
    (2 * N * D < m → ∀ n d, |n| ≤ N → 0 < d → d ≤ D → Int.gcd n d = 1 →
      d * (u * g) ≡ n [ZMOD m] → ratreconwden u m g N D = some ((n, d), true)) := by
  constructor
  · intro n d h
    obtain ⟨a, b⟩ := Verif.VecRecon.ratreconwden_sound u m g N D hm hN _ h
    exact ⟨((Int.modEq_iff_dvd).mpr a).symm, b⟩
  · intro hND n d h1 h2 h3 h4 h5
    exact Verif.VecRecon.ratreconwden_complete u m g N D hm hN hND n d h1 h2 h3 h4
      ((Int.modEq_iff_dvd).mp h5.symm)

open Verif.RatRecon in
/-- C04 for `mpq_reconstruct_mpz` (bounds `N = D = floor(sqrt(m/2))`), for odd moduli (products of
odd primes). -/
theorem C04_mpq_reconstruct (a m : Int) (hm : 8 < m) (hodd : m % 2 = 1) :
    (∀ n d, reconstruct a m = some ((n, d), true) →
      d * a ≡ n [ZMOD m] ∧ 2 * n ^ 2 < m ∧ 0 < d ∧ 2 * d ^ 2 < m ∧ Int.gcd n d = 1) ∧
    (∀ n d, 2 * n ^ 2 < m → 0 < d → 2 * d ^ 2 < m → Int.gcd n d = 1 → d * a ≡ n [ZMOD m] →
      a < m → reconstruct a m = some ((n, d), true)) := by
  obtain ⟨v, v1, v2, v3, v4, v5⟩ := makeNonneg_spec a m (by omega)
  set N : Int := ((Nat.sqrt (m / 2).toNat : Nat) : Int) with hNdef
  have hN0 : 0 ≤ N := Int.natCast_nonneg _
  have hNN : N * N ≤ m / 2 := by
    have := Nat.sqrt_le (m / 2).toNat
    have h2 : ((Nat.sqrt (m / 2).toNat * Nat.sqrt (m / 2).toNat : Nat) : Int) ≤ ((m / 2).toNat : Int) := by
      exact_mod_cast this
    push_cast at h2
    exact h2.trans (by omega)
  have hN2 : ∀ x : Int, 2 * x ^ 2 < m ↔ |x| ≤ N := by
    intro x
    constructor
    · intro h
      have h1 : x.natAbs * x.natAbs ≤ (m / 2).toNat := by
        have : ((x.natAbs * x.natAbs : Nat) : Int) = x ^ 2 := by
          rw [pow_two]; push_cast; exact abs_mul_abs_self x
        omega
      have := Nat.le_sqrt.mpr h1
      rw [hNdef, Int.abs_eq_natAbs]; exact_mod_cast this
    · intro h
      have h1 : x ^ 2 ≤ N * N := by
        rw [← sq_abs, pow_two]
        exact mul_le_mul h h (abs_nonneg _) hN0
      omega
  have hND : 2 * N * N < m := by
    have : 2 * N * N = 2 * (N * N) := by ring
    omega
  have h1N : 1 ≤ N := by
    have := (hN2 1).mp (by omega)
    simpa using this
  have hav : ∀ n d : Int, d * v ≡ n [ZMOD m] ↔ d * a ≡ n [ZMOD m] := fun n d =>
    ⟨fun h => (Int.ModEq.mul_left d v3.symm).trans h, fun h => (Int.ModEq.mul_left d v3).trans h⟩
  obtain ⟨res, r1, r2, r3⟩ := core_spec v m N N (by omega) v2 hN0
  unfold reconstruct
  rw [v1, Option.bind_some]
  simp only [← hNdef]
  unfold reconstruct2
  constructor
  · intro n d h
    split_ifs at h with c1 c2
    · simp only [Option.some.injEq, Prod.mk.injEq, and_true] at h
      obtain ⟨rfl, rfl⟩ := h
      refine ⟨(hav _ _).mp (by rw [one_mul]), (hN2 _).mpr (by rw [abs_of_nonneg v2]; exact c1),
        by norm_num, by omega, by simp⟩
    · simp only [Option.some.injEq, Prod.mk.injEq, and_true] at h
      obtain ⟨rfl, rfl⟩ := h
      refine ⟨(hav _ _).mp (by rw [one_mul]; exact (Int.modEq_iff_dvd).mpr ⟨-1, by ring⟩),
        (hN2 _).mpr c2, by norm_num, by omega, by simp⟩
    · rw [r1, Option.some_inj] at h
      subst h
      obtain ⟨a1, a2, a3, a4, a5⟩ := r2 rfl
      exact ⟨(hav _ _).mp ((Int.modEq_iff_dvd).mpr a1).symm, (hN2 _).mpr a2, a3,
        (hN2 _).mpr (by rw [abs_of_pos a3]; exact a4), a5⟩
  · intro n d h1 h2 h3 h4 h5 h6
    have hn := (hN2 n).mp h1
    have hd := (hN2 d).mp h3
    rw [abs_of_pos h2] at hd
    have hc := (Int.modEq_iff_dvd).mp ((hav n d).mpr h5).symm
    have huniq := r3 hND n d hn h2 hd h4 hc
    -- the quick acceptance returns the same fraction by uniqueness
    have uniq : ∀ n' : Int, |n'| ≤ N → m ∣ 1 * v - n' → n' = n ∧ 1 = d := by
      intro n' b1 b2
      have := r3 hND n' 1 b1 (by norm_num) h1N (by simp) b2
      rw [this] at huniq
      simpa using huniq
    split_ifs with c1 c2
    · obtain ⟨rfl, rfl⟩ := uniq v (by rw [abs_of_nonneg v2]; exact c1) ⟨0, by ring⟩
      rfl
    · obtain ⟨e, rfl⟩ := uniq (v - m) c2 ⟨1, by ring⟩
      rw [e]
    · rw [r1, huniq]

example : ∃ u m N D n d : Int, 0 < m ∧ 0 ≤ N ∧ N < m ∧ 2 * N * D < m ∧ |n| ≤ N ∧ 0 < d ∧ d ≤ D ∧
    Int.gcd n d = 1 ∧ d * u ≡ n [ZMOD m] ∧ n ≠ 0 ∧ d ≠ 1 :=
  ⟨68, 101, 7, 7, 2, 3, by decide⟩

/-! ## C05: vector reconstruction -/

open Verif.VecRecon in
/-- C05: on success the vector has the length of the input, the denominator is positive, every
entry is `L * pol[i]` modulo `m`, and `L` clears denominators of fractions within the bounds. -/
theorem C05_vector_reconstruction (pol : List Int) (m N D : Int) (hm : 1 < m) (hN : 0 ≤ N) (r : List Int) (L : Int) (h : recon pol m N D = some (r, L)) :
    0 < L ∧ List.Forall₂ (fun p x => L * p ≡ x [ZMOD m] ∧
      ∃ n d : Int, |n| ≤ N ∧ 0 < d ∧ d ≤ D ∧ Int.gcd n d = 1 ∧ x * d = n * L) pol r := by
  unfold recon at h
  rw [Option.map_eq_some_iff] at h
  obtain ⟨l, hl, hcom⟩ := h
  have hf := mapM_forall₂ _ _ _ hl
  have hs : List.Forall₂ (fun u (nd : Int × Int) => m ∣ nd.2 * u - nd.1 ∧ |nd.1| ≤ N ∧ 0 < nd.2 ∧
      nd.2 ≤ D ∧ Int.gcd nd.1 nd.2 = 1) pol l :=
    hf.imp (fun u nd h => ratrecon_sound u m N D hm hN nd (ok_some h))
  have hpos : ∀ nd ∈ l, 0 < nd.2 := forall₂_right (fun _ _ h => h.2.2.1) hs
  obtain ⟨hL, hc⟩ := common_spec l hpos
  rw [hcom] at hL hc
  refine ⟨hL, ?_⟩
  have hdiv : ∀ nd ∈ l, nd.2 ∣ L := by
    intro nd hnd
    have := lcmDen_dvd l nd hnd
    have e : (common l).2 = L := by rw [hcom]
    rw [← e]; exact this
  clear hcom hl hf
  simp only at hc hL
  induction hs generalizing r with
  | nil => cases hc; exact .nil
  | @cons u nd us l h1 _ ih =>
    cases hc with
    | cons h2 h3 =>
      refine .cons ⟨?_, nd.1, nd.2, h1.2.1, h1.2.2.1, h1.2.2.2.1, h1.2.2.2.2, h2⟩
        (ih _ (fun x hx => hpos x (List.mem_cons_of_mem _ hx)) h3
          (fun x hx => hdiv x (List.mem_cons_of_mem _ hx)))
      obtain ⟨k, hk⟩ := hdiv nd List.mem_cons_self
      have hd0 : nd.2 ≠ 0 := h1.2.2.1.ne'
      have hx : ∀ x : Int, x * nd.2 = nd.1 * L → x = nd.1 * k := by
        intro x hx
        rw [hk] at hx
        apply mul_right_cancel₀ hd0
        rw [hx]; ring
      rw [hx _ h2, hk]
      have := (Int.modEq_iff_dvd).mpr h1.1
      have h5 := (Int.ModEq.mul_right k this).symm
      have e : nd.2 * u * k = nd.2 * k * u := by ring
      rw [e] at h5
      exact h5

open Verif.VecRecon in
/-- C05: if the coefficients are the images of rational numbers `n/d` within the bounds, the
reconstruction succeeds and returns them over their least common denominator. -/
theorem C05_vector_complete (pol : List Int) (m N D : Int) (hm : 1 < m) (hN : 0 ≤ N) (hND : 2 * N * D < m) (fr : List (Int × Int))
    (hfr : List.Forall₂ (fun u nd => |nd.1| ≤ N ∧ 0 < nd.2 ∧ nd.2 ≤ D ∧ Int.gcd nd.1 nd.2 = 1 ∧
      nd.2 * u ≡ nd.1 [ZMOD m]) pol fr) :
    ∃ r L, recon pol m N D = some (r, L) ∧ 0 < L ∧ (∀ K, (∀ nd ∈ fr, nd.2 ∣ K) → L ∣ K) ∧
      List.Forall₂ (fun nd x => x * nd.2 = nd.1 * L) fr r := by
  have hmap : pol.mapM (fun u => ok (Verif.RatRecon.ratrecon u m N D)) = some fr := by
    apply forall₂_mapM
    refine hfr.imp ?_
    intro u nd h
    rw [ratrecon_complete u m N D hm hN hND nd.1 nd.2 h.1 h.2.1 h.2.2.1 h.2.2.2.1
      ((Int.modEq_iff_dvd).mp h.2.2.2.2.symm)]
    rfl
  have hpos : ∀ nd ∈ fr, 0 < nd.2 := forall₂_right (fun _ _ h => h.2.1) hfr
  obtain ⟨hL, hc⟩ := common_spec fr hpos
  refine ⟨(common fr).1, (common fr).2, ?_, hL, fun K hK => lcmDen_min fr K hK, hc⟩
  unfold recon
  rw [hmap]; rfl

open Verif.VecRecon in
/-- C05 for the variant used when lifting the parametrisation: `L * (guessed_den * pol[i])`. -/
theorem C05_vector_with_denominator (pol : List Int) (k : Nat) (m g N D : Int) (hm : 1 < m)
    (hN : 0 ≤ N) (hg : 0 < g)
    (r : List Int) (L : Int) (h : reconWithDenom pol k m g N D = some (r, L)) :
    0 < L ∧ List.Forall₂ (fun p x => L * (g * p) ≡ x [ZMOD m]) pol r := by
  unfold reconWithDenom at h
  rw [Option.bind_eq_some_iff] at h
  obtain ⟨hi, hhi, h⟩ := h
  rw [Option.map_eq_some_iff] at h
  obtain ⟨lo, hlo, hcom⟩ := h
  have fhi : List.Forall₂ (fun u (nd : Int × Int) => m ∣ nd.2 * (u * g) - nd.1 ∧ 0 < nd.2)
      (pol.drop k) hi :=
    (mapM_forall₂ _ _ _ hhi).imp (fun u nd h => by
      have := ratreconwden_sound u m g N D hm hN nd (ok_some h)
      exact ⟨this.1, this.2.2.1⟩)
  have hposhi : ∀ nd ∈ hi, 0 < nd.2 := forall₂_right (fun _ _ h => h.2) fhi
  have hl := lcmDen_pos hi hposhi
  set l := lcmDen hi with hldef
  have flo : List.Forall₂ (fun u (nd : Int × Int) => m ∣ nd.2 * (u * g) - nd.1 ∧ 0 < nd.2)
      (pol.take k) lo :=
    (mapM_forall₂ _ _ _ hlo).imp (fun u nd h => by
      rw [Option.map_eq_some_iff] at h
      obtain ⟨nd', h1, rfl⟩ := h
      have := ratreconwden_sound u m (l * g) (N * l) (D / l) hm (mul_nonneg hN hl.le) nd' (ok_some h1)
      rw [Int.mul_ediv_cancel _ hg.ne']
      refine ⟨?_, mul_pos this.2.2.1 hl⟩
      have e : nd'.2 * l * (u * g) - nd'.1 = nd'.2 * (u * (l * g)) - nd'.1 := by ring
      simp only [e]
      exact this.1)
  have fall := List.rel_append flo fhi
  simp only [List.take_append_drop] at fall
  have hpos : ∀ nd ∈ lo ++ hi, 0 < nd.2 := forall₂_right (fun _ _ h => h.2) fall
  obtain ⟨hL, hc⟩ := common_spec _ hpos
  have hdiv : ∀ nd ∈ lo ++ hi, nd.2 ∣ L := by
    intro nd hnd
    have := lcmDen_dvd _ nd hnd
    have e : (common (lo ++ hi)).2 = L := by rw [hcom]
    rw [← e]; exact this
  rw [hcom] at hL hc
  refine ⟨hL, ?_⟩
  simp only at hc hL
  clear hcom hlo hhi fhi flo
  generalize lo ++ hi = q at *
  induction fall generalizing r with
  | nil => cases hc; exact .nil
  | @cons u nd us l h1 _ ih =>
    cases hc with
    | cons h2 h3 =>
      refine .cons ?_ (ih _ (fun x hx => hpos x (List.mem_cons_of_mem _ hx)) h3
          (fun x hx => hdiv x (List.mem_cons_of_mem _ hx)))
      obtain ⟨k, hk⟩ := hdiv nd List.mem_cons_self
      have hd0 : nd.2 ≠ 0 := h1.2.ne'
      have hx : ∀ x : Int, x * nd.2 = nd.1 * L → x = nd.1 * k := by
        intro x hx
        rw [hk] at hx
        apply mul_right_cancel₀ hd0
        rw [hx]; ring
      rw [hx _ h2, hk]
      have := (Int.modEq_iff_dvd).mpr h1.1
      have h5 := (Int.ModEq.mul_right k this).symm
      have e : nd.2 * (u * g) * k = nd.2 * k * (g * u) := by ring
      rw [e] at h5
      exact h5

example : Verif.VecRecon.recon [68, 51, 5] 101 7 7 = some ([4, 3, 30], 6) := by decide +kernel
example : Verif.VecRecon.reconWithDenom [34, 17, 2] 1 1000003 2 400 1000 =
    some ([68, 34, 4], 1) := by decide +kernel

/-! ## C06: primality -/

open Verif.Primes in
/-- C06: every 32 bit number other than 1 that is accepted is prime (including the range in which
the loop bound `i*i` wraps around). -/
theorem C06_accepted_is_prime (n : Nat) (hn : n < 2 ^ 32) (h1 : n ≠ 1) (h : isPrime n = some true) :
    Nat.Prime n := isPrime_sound n hn h1 h

open Verif.Primes in
/-- C06: on the range from which moduli are drawn the test decides primality. -/
theorem C06_decides (n : Nat) (h24 : 24 ≤ n) (hn : n < 65531 * 65531) :
    (isPrime n = some true ↔ Nat.Prime n) ∧ (isPrime n = some false ↔ ¬ Nat.Prime n) := by
  obtain ⟨b, hb, hb2⟩ := isPrime_spec n h24 hn
  rw [hb]
  cases b with
  | false => simp at hb2; simpa using hb2
  | true => simp at hb2; simpa using hb2

open Verif.Primes in
/-- C06: `next_prime` returns the least prime above its argument. -/
theorem C06_next_prime (n : Nat) (h23 : 23 ≤ n) (hn : n ≤ 2147155980) :
    ∃ p, nextPrime n = some p ∧ Nat.Prime p ∧ n < p ∧ ∀ q, Nat.Prime q → n < q → p ≤ q := by
  obtain ⟨p0, hp0, h1, h2⟩ := Nat.exists_prime_lt_and_le_two_mul n (by omega)
  have hex : ∃ p, Nat.Prime p ∧ n < p := ⟨p0, hp0, h1⟩
  classical
  refine ⟨Nat.find hex, ?_, (Nat.find_spec hex).1, (Nat.find_spec hex).2, fun q hq hq2 =>
    Nat.find_min' hex ⟨hq, hq2⟩⟩
  have hle : Nat.find hex ≤ p0 := Nat.find_min' hex ⟨hp0, h1⟩
  exact search_spec (n + 1) (Nat.find hex) (by omega) (Nat.find_spec hex).2 (Nat.find_spec hex).1
    (fun q h3 h4 hq => Nat.find_min hex h4 ⟨hq, by omega⟩) (by omega)

open Verif.Primes in
/-- The full claim "accepted iff prime" fails below 24: 1 is accepted, the small primes are rejected. -/
theorem C06_small_inputs_wrong :
    isPrime 1 = some true ∧ isPrime 2 = some false ∧ isPrime 23 = some false := by
  refine ⟨?_, ?_, ?_⟩ <;> decide +kernel

set_option maxRecDepth 100000 in
theorem prime_4294967291 : Nat.Prime 4294967291 := by norm_num

open Verif.Primes in
/-- The claim also fails at the upper end: the largest 32 bit prime is rejected, since the wrapped square never exceeds it. -/
theorem C06_large_prime_rejected : Nat.Prime 4294967291 ∧ isPrime 4294967291 = some false := by
  refine ⟨prime_4294967291, ?_⟩
  unfold isPrime
  split
  · rfl
  · exact loop_large 5 (by norm_num) (by norm_num)

example : (24 : Nat) ≤ 1303905301 ∧ 1303905301 < 65531 * 65531 := by decide

/-! ## C46: dense modular products -/

open Verif.MatVec in
/-- C46, portable code path: every row of every dimension is exact for all primes below 2^31 and no
signed overflow occurs. -/
theorem C46_portable_row (p : Nat) (hp0 : 0 < p) (hp2 : p < 2 ^ 31) (m v : Nat → Nat) (ncols : Nat)
    (hm : ∀ i < ncols, m i < p) (hv : ∀ i < ncols, v i < p) :
    navxRow p m v ncols = some ((∑ i ∈ Finset.range ncols, m i * v i) % p) :=
  navxRow_correct p hp0 hp2 m v ncols hm hv

open Verif.MatVec in
/-- C46, AVX2 code path, restricted to moduli with `8 (p-1)^2 < 2^64` (missing: the larger primes
below 2^31, for which the statement is false, see `C46_avx_row_overflow`). -/
theorem C46_avx_row_partial (p : Nat) (hp0 : 0 < p) (hp : p < 2 ^ 32)
    (h8 : 8 * (p - 1) ^ 2 < 2 ^ 64) (m v : Nat → Nat) (ncols : Nat) (hn : ncols < 2 ^ 32)
    (hm : ∀ i < ncols, m i < p) (hv : ∀ i < ncols, v i < p) :
    avxRow p (2 ^ 32 % p) (2 * (2 ^ 63 % p) % p) m v ncols =
      (∑ i ∈ Finset.range ncols, m i * v i) % p :=
  avxRow_correct p hp0 hp h8 m v ncols hn hm hv

open Verif.MatVec in
/-- The AVX2 path is not exact for the prime 2^31 - 1: eight products of one lane overflow 64 bits. -/
theorem C46_avx_row_overflow :
    ∃ (p : Nat) (m v : Nat → Nat) (ncols : Nat), Nat.Prime p ∧ p < 2 ^ 31 ∧
      (∀ i, m i < p) ∧ (∀ i, v i < p) ∧
      avxRow p (2 ^ 32 % p) (2 * (2 ^ 63 % p) % p) m v ncols ≠
        (∑ i ∈ Finset.range ncols, m i * v i) % p := by
  refine ⟨2147483647, fun _ => 2147483646, fun _ => 2147483646, 32, prime_2147483647,
    by norm_num,
    fun _ => by norm_num, fun _ => by norm_num, ?_⟩
  decide +kernel

open Verif.MatVec in
/-- C46 for the multiplication by the whole (sparse) multiplication matrix, AVX2 path, moduli up to
the largest one the solver draws itself: every row of the result is the exact product. `rows r`
describes the intended matrix. -/
theorem C46_multiplication_partial (p : Nat) (hp0 : 0 < p) (hp : p ≤ 1518500249)
    (M : SpMat) (vec res : Nat → Nat) (hn : M.ncols < 2 ^ 32)
    (hvec : ∀ i < M.ncols, vec i < p)
    (hpos : ∀ t ∈ M.triv, t.2 < M.ncols)
    (hdense : ∀ d ∈ M.dense, (∀ i < M.ncols, d.2.1 i < p) ∧ d.2.2 ≤ M.ncols ∧
      ∀ i, M.ncols - d.2.2 ≤ i → i < M.ncols → d.2.1 i = 0)
    (hidx : ((M.triv.map (fun t => t.1)) ++ (M.dense.map (fun d => d.1))).Nodup) :
    (∀ t ∈ M.triv, multVec p M vec res t.1 =
      (∑ i ∈ Finset.range M.ncols, (if i = t.2 then 1 else 0) * vec i) % p) ∧
    (∀ d ∈ M.dense, multVec p M vec res d.1 = (∑ i ∈ Finset.range M.ncols, d.2.1 i * vec i) % p) := by
  rw [List.nodup_append] at hidx
  obtain ⟨n1, n2, n3⟩ := hidx
  have h8 : 8 * (p - 1) ^ 2 < 2 ^ 64 := by
    have : (p - 1) ^ 2 ≤ 1518500248 ^ 2 := Nat.pow_le_pow_left (by omega) 2
    omega
  constructor
  · intro t ht
    unfold multVec
    rw [foldl_update_not_mem M.dense (fun d => d.1)]
    · rw [foldl_update_mem M.triv (fun t => t.1) (fun t => vec t.2) res n1 t ht]
      have : (∑ i ∈ Finset.range M.ncols, (if i = t.2 then 1 else 0) * vec i) = vec t.2 := by
        rw [Finset.sum_eq_single t.2]
        · simp
        · intro b _ hb; simp [hb]
        · intro h; exact absurd (Finset.mem_range.mpr (hpos t ht)) h
      rw [this, Nat.mod_eq_of_lt (hvec _ (hpos t ht))]
    · intro d hd e
      exact n3 t.1 (List.mem_map.mpr ⟨t, ht, rfl⟩) d.1 (List.mem_map.mpr ⟨d, hd, rfl⟩) e.symm
  · intro d hd
    unfold multVec
    rw [foldl_update_mem M.dense (fun d => d.1)
      (fun d => avxRow p (RED32 p) (RED64 p) d.2.1 vec (M.ncols - d.2.2)) _ n2 d hd]
    obtain ⟨a1, a2, a3⟩ := hdense d hd
    rw [avxRow_correct p hp0 (by omega) h8 _ _ _ (by omega) (fun i hi => a1 i (by omega))
      (fun i hi => hvec i (by omega)), dot_trailing _ _ _ _ a2 a3]
    rfl

open Verif.MatVec in
/-- C46 for the whole product when compiled without AVX2: all primes below 2^31. -/
theorem C46_multiplication_portable (p : Nat) (hp0 : 0 < p) (hp : p < 2 ^ 31)
    (M : SpMat) (vec res : Nat → Nat)
    (hvec : ∀ i < M.ncols, vec i < p)
    (hpos : ∀ t ∈ M.triv, t.2 < M.ncols)
    (hdense : ∀ d ∈ M.dense, ∀ i < M.ncols, d.2.1 i < p)
    (hidx : ((M.triv.map (fun t => t.1)) ++ (M.dense.map (fun d => d.1))).Nodup) :
    ∃ out, multVecPortable p M vec res = some out ∧
    (∀ t ∈ M.triv, out t.1 =
      (∑ i ∈ Finset.range M.ncols, (if i = t.2 then 1 else 0) * vec i) % p) ∧
    (∀ d ∈ M.dense, out d.1 = (∑ i ∈ Finset.range M.ncols, d.2.1 i * vec i) % p) := by
  rw [List.nodup_append] at hidx
  obtain ⟨n1, n2, n3⟩ := hidx
  unfold multVecPortable
  simp only
  rw [foldl_update_portable M.dense (fun d => d.1) (fun d => dot d.2.1 vec M.ncols % p)
    (fun d => navxRow p d.2.1 vec M.ncols) _
    (fun d hd => navxRow_correct p hp0 hp _ _ _ (hdense d hd) hvec)]
  refine ⟨_, rfl, ?_, ?_⟩
  · intro t ht
    rw [foldl_update_not_mem M.dense (fun d => d.1)]
    · rw [foldl_update_mem M.triv (fun t => t.1) (fun t => vec t.2) res n1 t ht]
      have : (∑ i ∈ Finset.range M.ncols, (if i = t.2 then 1 else 0) * vec i) = vec t.2 := by
        rw [Finset.sum_eq_single t.2]
        · simp
        · intro b _ hb; simp [hb]
        · intro h; exact absurd (Finset.mem_range.mpr (hpos t ht)) h
      rw [this, Nat.mod_eq_of_lt (hvec _ (hpos t ht))]
    · intro d hd e
      exact n3 t.1 (List.mem_map.mpr ⟨t, ht, rfl⟩) d.1 (List.mem_map.mpr ⟨d, hd, rfl⟩) e.symm
  · intro d hd
    rw [foldl_update_mem M.dense (fun d => d.1) (fun d => dot d.2.1 vec M.ncols % p) _ n2 d hd]
    rfl

example : ∃ (M : Verif.MatVec.SpMat), M.triv ≠ [] ∧ M.dense ≠ [] ∧
    ((M.triv.map (fun t => t.1)) ++ (M.dense.map (fun d => d.1))).Nodup ∧
    (∀ t ∈ M.triv, t.2 < M.ncols) ∧ (∀ d ∈ M.dense, ∀ i < M.ncols, d.2.1 i < 1073741827) :=
  ⟨⟨2, [(0, 1)], [(1, fun i => i + 5, 0)]⟩, by simp, by simp, by simp, by simp, by
    intro d hd i hi; simp at hd; subst hd; simp at *; omega⟩
example : 8 * (1303905301 - 1) ^ 2 < 2 ^ 64 := by norm_num

end Verif.Props
