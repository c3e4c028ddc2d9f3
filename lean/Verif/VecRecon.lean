import Verif.RatRecon
import Mathlib.Algebra.GCDMonoid.Nat
import Mathlib.Data.Rat.Defs
import Mathlib.Data.Rat.Lemmas
import Mathlib.Tactic.FieldSimp

/-! Model of the reconstruction of a coefficient vector with a common denominator,
`rational_reconstruction_mpz_ptr` and `rational_reconstruction_mpz_ptr_with_denom` in
`src/msolve/msolve.c`. -/

namespace Verif.VecRecon

open Verif.RatRecon

/-- Success flag of one reconstruction turned into an `Option` (an abort of GMP is merged with a
failure). -/
def ok (r : Option ((Int × Int) × Bool)) : Option (Int × Int) :=
  match r with
  | some (nd, true) => some nd
  | _ => none

/-- `mpz_lcm` accumulated over the denominators, starting from the first one
(msolve.c 1045-1048, 1090-1093, 1117-1120). The empty case does not occur. -/
def lcmDen : List (Int × Int) → Int
  | [] => 1
  | nd :: l => l.foldl (fun a nd => (Int.lcm a nd.2 : Int)) nd.2

/-- The common denominator step, msolve.c 1045-1058 and 1117-1131: `recons[i] = num[i]*(lcm/den[i])`. -/
def common (l : List (Int × Int)) : List Int × Int :=
  let L := lcmDen l
  (l.map (fun nd => nd.1 * (L / nd.2)), L)

/-- `rational_reconstruction_mpz_ptr`, msolve.c 1008-1061: every coefficient is reconstructed with
`ratrecon` (first the indices from `maxrec`, then those below; the order does not matter for the
outcome).  The updated value of `*maxrec` in case of failure is not modelled. -/
def recon (pol : List Int) (m N D : Int) : Option (List Int × Int) :=
  (pol.mapM (fun u => ok (ratrecon u m N D))).map common

/-- `rational_reconstruction_mpz_ptr_with_denom`, msolve.c 1063-1136.  The coefficients from index
`maxrec` on are reconstructed after multiplication by `guessed_den`; let `lcm` be the lcm of the
denominators found.  The other ones are reconstructed after multiplication by
`newlcm = lcm*guessed_den` with the bounds `N*lcm` and `floor(D/lcm)`, and their denominator is
multiplied by `newlcm/guessed_den`.  (Line 1114 sets `newlcm = lcm(newlcm, newlcm/guessed_den)`, which
leaves its absolute value unchanged; modelled as no change, see `newlcm_invariant`.) -/
def reconWithDenom (pol : List Int) (maxrec : Nat) (m gden N D : Int) : Option (List Int × Int) :=
  ((pol.drop maxrec).mapM (fun u => ok (ratreconwden u m gden N D))).bind fun hi =>
    let lcm := lcmDen hi
    let newlcm := lcm * gden
    ((pol.take maxrec).mapM (fun u => (ok (ratreconwden u m newlcm (N * lcm) (D / lcm))).map
        fun nd => (nd.1, nd.2 * (newlcm / gden)))).map fun lo => common (lo ++ hi)

/-- The update in line 1114 does not change `newlcm` (for a positive `guessed_den`). -/
theorem newlcm_invariant (lcm gden : Int) (hl : 0 < lcm) (hg : 0 < gden) :
    (Int.lcm (lcm * gden) (lcm * gden / gden) : Int) = lcm * gden := by
  rw [Int.mul_ediv_cancel _ hg.ne']
  exact Int.lcm_eq_left (mul_pos hl hg).le (Dvd.intro _ rfl)

theorem foldl_lcm_pos (l : List (Int × Int)) (a : Int) (ha : 0 < a) (hl : ∀ nd ∈ l, 0 < nd.2) :
    0 < l.foldl (fun a nd => (Int.lcm a nd.2 : Int)) a := by
  induction l generalizing a with
  | nil => exact ha
  | cons nd l ih =>
    rw [List.foldl_cons]
    apply ih
    · have := hl nd List.mem_cons_self
      have : 0 < Int.lcm a nd.2 := Int.lcm_pos ha.ne' this.ne'
      exact_mod_cast this
    · exact fun x hx => hl x (List.mem_cons_of_mem _ hx)

theorem foldl_lcm_dvd (l : List (Int × Int)) (a : Int) :
    a ∣ l.foldl (fun a nd => (Int.lcm a nd.2 : Int)) a ∧
      ∀ nd ∈ l, nd.2 ∣ l.foldl (fun a nd => (Int.lcm a nd.2 : Int)) a := by
  induction l generalizing a with
  | nil => simp
  | cons nd l ih =>
    rw [List.foldl_cons]
    obtain ⟨h1, h2⟩ := ih (Int.lcm a nd.2 : Int)
    refine ⟨(Int.dvd_lcm_left a nd.2).trans h1, ?_⟩
    intro x hx
    rcases List.mem_cons.mp hx with rfl | hx
    · exact (Int.dvd_lcm_right a x.2).trans h1
    · exact h2 x hx

theorem lcmDen_pos (l : List (Int × Int)) (hl : ∀ nd ∈ l, 0 < nd.2) : 0 < lcmDen l := by
  cases l with
  | nil => simp [lcmDen]
  | cons nd l =>
    exact foldl_lcm_pos l _ (hl nd List.mem_cons_self) (fun x hx => hl x (List.mem_cons_of_mem _ hx))

theorem lcmDen_dvd (l : List (Int × Int)) : ∀ nd ∈ l, nd.2 ∣ lcmDen l := by
  cases l with
  | nil => simp
  | cons a l =>
    intro nd h
    rcases List.mem_cons.mp h with rfl | h
    · exact (foldl_lcm_dvd l _).1
    · exact (foldl_lcm_dvd l _).2 nd h

theorem foldl_lcm_min (l : List (Int × Int)) (a K : Int) (ha : a ∣ K) (hl : ∀ nd ∈ l, nd.2 ∣ K) :
    l.foldl (fun a nd => (Int.lcm a nd.2 : Int)) a ∣ K := by
  induction l generalizing a with
  | nil => exact ha
  | cons nd l ih =>
    rw [List.foldl_cons]
    exact ih _ (Int.coe_lcm_dvd ha (hl nd List.mem_cons_self))
      (fun x hx => hl x (List.mem_cons_of_mem _ hx))

/-- `lcmDen` is the least common multiple. -/
theorem lcmDen_min (l : List (Int × Int)) (K : Int) (hl : ∀ nd ∈ l, nd.2 ∣ K) : lcmDen l ∣ K := by
  cases l with
  | nil => simp [lcmDen]
  | cons a l =>
    exact foldl_lcm_min l _ K (hl a List.mem_cons_self) (fun x hx => hl x (List.mem_cons_of_mem _ hx))

theorem mapM_forall₂ {α β : Type} (f : α → Option β) (l : List α) (r : List β)
    (h : l.mapM f = some r) : List.Forall₂ (fun a b => f a = some b) l r := by
  induction l generalizing r with
  | nil => simp at h; subst h; exact .nil
  | cons a l ih =>
    rw [List.mapM_cons] at h
    cases hfa : f a with
    | none => rw [hfa] at h; simp at h
    | some b =>
      cases hfl : l.mapM f with
      | none => rw [hfa, hfl] at h; simp at h
      | some bs =>
        rw [hfa, hfl] at h
        simp at h
        subst h
        exact .cons hfa (ih bs hfl)

theorem forall₂_mapM {α β : Type} (f : α → Option β) (l : List α) (r : List β)
    (h : List.Forall₂ (fun a b => f a = some b) l r) : l.mapM f = some r := by
  induction h with
  | nil => rfl
  | cons h1 _ ih => rw [List.mapM_cons, h1, ih]; rfl

theorem forall₂_right {α β : Type} {R : α → β → Prop} {P : β → Prop} (hR : ∀ a b, R a b → P b)
    {l : List α} {r : List β} (h : List.Forall₂ R l r) : ∀ b ∈ r, P b := by
  induction h with
  | nil => simp
  | cons h1 _ ih =>
    intro b hb
    rcases List.mem_cons.mp hb with rfl | hb
    · exact hR _ _ h1
    · exact ih b hb

theorem ok_some {r : Option ((Int × Int) × Bool)} {nd : Int × Int} (h : ok r = some nd) :
    r = some (nd, true) := by
  unfold ok at h
  split at h
  · simp_all
  · simp at h

/-- Soundness of one `ratrecon`. -/
theorem ratrecon_sound (u m N D : Int) (hm : 1 < m) (hN : 0 ≤ N) (nd : Int × Int)
    (h : ratrecon u m N D = some (nd, true)) :
    m ∣ nd.2 * u - nd.1 ∧ |nd.1| ≤ N ∧ 0 < nd.2 ∧ nd.2 ≤ D ∧ Int.gcd nd.1 nd.2 = 1 := by
  obtain ⟨v, v1, v2, v3, -, -⟩ := makeNonneg_spec u m (by omega)
  obtain ⟨res, r1, r2, -⟩ := core_spec v m N D hm v2 hN
  unfold ratrecon at h
  rw [v1, Option.bind_some, r1, Option.some_inj] at h
  subst h
  obtain ⟨a, b⟩ := r2 rfl
  refine ⟨?_, b⟩
  have h1 := (Int.modEq_iff_dvd).mp v3
  have : nd.2 * u - nd.1 = (nd.2 * v - nd.1) + nd.2 * (u - v) := by ring
  rw [this]
  exact dvd_add a (Dvd.dvd.mul_left h1 _)

/-- Completeness of one `ratrecon`. -/
theorem ratrecon_complete (u m N D : Int) (hm : 1 < m) (hN : 0 ≤ N)
    (hND : 2 * N * D < m) (n0 d0 : Int) (hn : |n0| ≤ N) (hd0 : 0 < d0) (hd : d0 ≤ D)
    (hg : Int.gcd n0 d0 = 1) (hc : m ∣ d0 * u - n0) :
    ratrecon u m N D = some ((n0, d0), true) := by
  obtain ⟨v, v1, v2, v3, -, -⟩ := makeNonneg_spec u m (by omega)
  obtain ⟨res, r1, -, r3⟩ := core_spec v m N D hm v2 hN
  unfold ratrecon
  rw [v1, Option.bind_some, r1]
  congr 1
  apply r3 hND n0 d0 hn hd0 hd hg
  have h1 := (Int.modEq_iff_dvd).mp v3
  have : d0 * v - n0 = (d0 * u - n0) - d0 * (u - v) := by ring
  rw [this]
  exact dvd_sub hc (Dvd.dvd.mul_left h1 _)

theorem wden_cong (u m g : Int) : m ∣ u * g - u % m * g % m := by
  have : u % m * g % m ≡ u * g [ZMOD m] :=
    (Int.mod_modEq _ _).trans (Int.ModEq.mul_right _ (Int.mod_modEq _ _))
  exact (Int.modEq_iff_dvd).mp this

theorem ratreconwden_sound (u m g N D : Int) (hm : 1 < m) (hN : 0 ≤ N)
    (nd : Int × Int) (h : ratreconwden u m g N D = some (nd, true)) :
    m ∣ nd.2 * (u * g) - nd.1 ∧ |nd.1| ≤ N ∧ 0 < nd.2 ∧ nd.2 ≤ D ∧ Int.gcd nd.1 nd.2 = 1 := by
  obtain ⟨res, r1, r2, -⟩ := core_spec (u % m * g % m) m N D hm (Int.emod_nonneg _ (by omega)) hN
  unfold ratreconwden at h
  rw [if_neg (by omega), r1, Option.some_inj] at h
  subst h
  obtain ⟨a, b⟩ := r2 rfl
  refine ⟨?_, b⟩
  have h1 := wden_cong u m g
  have : nd.2 * (u * g) - nd.1 = (nd.2 * (u % m * g % m) - nd.1) + nd.2 * (u * g - u % m * g % m) := by
    ring
  rw [this]
  exact dvd_add a (Dvd.dvd.mul_left h1 _)

theorem ratreconwden_complete (u m g N D : Int) (hm : 1 < m) (hN : 0 ≤ N)
    (hND : 2 * N * D < m) (n0 d0 : Int) (hn : |n0| ≤ N) (hd0 : 0 < d0) (hd : d0 ≤ D)
    (hg : Int.gcd n0 d0 = 1) (hc : m ∣ d0 * (u * g) - n0) :
    ratreconwden u m g N D = some ((n0, d0), true) := by
  obtain ⟨res, r1, -, r3⟩ := core_spec (u % m * g % m) m N D hm (Int.emod_nonneg _ (by omega)) hN
  unfold ratreconwden
  rw [if_neg (by omega), r1]
  congr 1
  apply r3 hND n0 d0 hn hd0 hd hg
  have h1 := wden_cong u m g
  have : d0 * (u % m * g % m) - n0 = (d0 * (u * g) - n0) - d0 * (u * g - u % m * g % m) := by ring
  rw [this]
  exact dvd_sub hc (Dvd.dvd.mul_left h1 _)

/-- Correctness of the common denominator step. -/
theorem common_spec (l : List (Int × Int)) (hl : ∀ nd ∈ l, 0 < nd.2) :
    0 < (common l).2 ∧
    List.Forall₂ (fun nd r => r * nd.2 = nd.1 * (common l).2) l (common l).1 := by
  refine ⟨lcmDen_pos l hl, ?_⟩
  unfold common
  simp only
  rw [List.forall₂_map_right_iff, List.forall₂_same]
  intro nd hnd
  have hd := lcmDen_dvd l nd hnd
  have := Int.ediv_mul_cancel hd
  rw [mul_assoc, this]

end Verif.VecRecon
