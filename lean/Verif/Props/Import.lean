import Mathlib.Tactic.Linarith
import Mathlib.Tactic.FinCases
import Verif.Hash
import Verif.Import
import Verif.Props.Orders

/-! Properties C14 - C18: import, validation and export of polynomials. -/

namespace Verif.Props

open Verif.Orders Verif.Import Verif.Hash Finset

/-! ### C14 -/

/-- C14: export after import gives back the user's exponents, for every block layout. -/
theorem C14_round_trip (nv nev : Nat) (hle : nev ≤ nv) (u buf : Nat → Nat) (hu : ∀ i < nv, u i < 65536) :
    exportEv (evl nv nev) (ebl nev) (setEv nv nev u buf) = (List.range nv).map u :=
  exportEv_setEv nv nev hle u buf hu

/-- C14: the degree entries are the degrees of the two blocks, modulo 2^16 (exact when the
degree is below 2^16). -/
theorem C14_degree_entries (nv nev : Nat) (hle : nev ≤ nv) (u buf : Nat → Nat) :
    (0 < nev → setEv nv nev u buf 0 = (∑ i ∈ range nev, u i) % 65536) ∧
    setEv nv nev u buf (ebl nev) = (∑ i ∈ Ico nev nv, u i) % 65536 := by
  obtain ⟨-, -, h3, h4⟩ := setEv_spec nv nev hle u buf
  exact ⟨h4, h3⟩

/-- C14: the round trip through the hash table: after any history of insertions and enlargements, the
exported exponents of a polynomial whose terms got the indices `ts` are the exponents the user passed. -/
theorem C14_round_trip_table (nv nev : Nat) (hle : nev ≤ nv) (rn : Nat → Nat) (m : Nat) (hm : m ≤ 32)
    (ops : List Op) (ht : HT) (l : List ((Nat → Nat) × Nat))
    (h : run (init (evl nv nev) rn m) ops = some (ht, l))
    (us : List (Nat → Nat)) (ts : List Nat) (hlen : us.length = ts.length)
    (hus : ∀ u ∈ us, ∀ i < nv, u i < 65536) (buf : Nat → Nat)
    (hts : ∀ p ∈ us.zip ts, (setEv nv nev p.1 buf, p.2) ∈ l) :
    exportPolys (evl nv nev) (ebl nev) [some (ts.map ht.ev)] =
      ([us.length], (us.map (fun u => (List.range nv).map u)).flatten) := by
  obtain ⟨-, -, he, -, -, hl⟩ := run_spec ops _ (init_inv (evl nv nev) rn m
    (by unfold evl; split_ifs <;> omega) hm) ht l h
  simp only [exportPolys, List.length_map, List.append_nil, hlen, Prod.mk.injEq, true_and]
  congr 1
  clear h
  induction us generalizing ts with
  | nil =>
    rw [List.length_nil] at hlen
    rw [List.length_eq_zero_iff.mp hlen.symm]; rfl
  | cons u us ih =>
    cases ts with
    | nil => simp at hlen
    | cons t ts =>
      have h1 := hts (u, t) (by simp)
      have h2 : exportEv (evl nv nev) (ebl nev) (ht.ev t) = (List.range nv).map u := by
        rw [← exportEv_setEv nv nev hle u buf (hus u List.mem_cons_self)]
        apply exportEv_congr nv nev _ _ _ hle
        intro j hj
        exact ((hl _ h1).2.2 j hj).symm
      have h3 := ih ts (by simpa using hlen) (fun u' hu' => hus u' (List.mem_cons_of_mem _ hu'))
        (fun p hp => hts p (by rw [List.zip_cons_cons]; exact List.mem_cons_of_mem _ hp))
      simp only [List.map_cons, h2, h3]

/-- C14: for nonzero polynomials the export writes exactly `nv` exponents per term. -/
theorem C14_export_size (nv nev : Nat) (hle : nev ≤ nv) (ps : List (List (Nat → Nat))) :
    (exportPolys (evl nv nev) (ebl nev) (ps.map some)).1 = ps.map List.length ∧
    (exportPolys (evl nv nev) (ebl nev) (ps.map some)).2.length = (ps.map List.length).sum * nv := by
  induction ps with
  | nil => exact ⟨rfl, by simp [exportPolys]⟩
  | cons t ps ih =>
    simp only [List.map_cons, exportPolys, List.length_append, ih.1, ih.2, List.sum_cons, true_and]
    have : ∀ ts : List (Nat → Nat), ((ts.map (exportEv (evl nv nev) (ebl nev))).flatten).length =
        ts.length * nv := by
      intro ts
      induction ts with
      | nil => simp
      | cons e ts ih =>
        simp only [List.map_cons, List.flatten_cons, List.length_append, ih, List.length_cons]
        have : (exportEv (evl nv nev) (ebl nev) e).length = nv := by
          unfold exportEv evl ebl
          simp only [List.length_append, List.length_map, List.length_range']
          split_ifs <;> omega
        rw [this, Nat.add_mul, Nat.one_mul, Nat.add_comm]
    rw [this, Nat.add_mul]

/-- C14: with an elimination block the export of a zero polynomial (possible for normal forms) writes
`nv + 1` exponents, one more than the `nv` entries allocated for it. -/
theorem C14_export_zero_poly_overflow (nv nev : Nat) (hnev : 0 < nev) (ps : List (List (Nat → Nat))) :
    (exportPolys (evl nv nev) (ebl nev) (none :: ps.map some)).2.length =
      1 + nv + (exportPolys (evl nv nev) (ebl nev) (ps.map some)).2.length := by
  simp only [exportPolys, List.length_append, List.length_map, List.length_range']
  have : evl nv nev - 1 = 1 + nv := by unfold evl; split_ifs <;> omega
  rw [this]

example : exportPolys (evl 3 1) (ebl 1) [some [setEv 3 1 (fun i => i + 4) id, setEv 3 1 (fun _ => 0) id]] =
    ([2], [4, 5, 6, 0, 0, 0]) := by decide

/-- A history meeting the hypotheses of the table round trip. -/
example : (run (init (evl 2 1) (fun j => j + 1) 3)
    [.insert (setEv 2 1 (fun i => i + 4) (fun _ => 0)), .insert (setEv 2 1 (fun i => 5 - i) (fun _ => 0))]).map
      (fun r => exportPolys (evl 2 1) (ebl 1) [some ([1, 2].map r.1.ev)]) = some ([2], [4, 5, 5, 4]) := by
  decide +kernel

/-! ### C15 -/

/-- C15 is false: of the generators `[0, f, g]`, with `f` and `g` valid, only `f` is imported. -/
theorem C15_valid_generator_lost :
    ∃ gens : List (List Int), ∃ g ∈ gens, ∃ im k, invalid g = false ∧
      importGens invalid 0 gens = .ok im k ∧ g ∉ im := by
  exact ⟨[[0], [1, 2], [3]], [3], by decide, [[1, 2]], 1, by decide, by decide, by decide⟩

/-- C15, exact characterisation: with `z` invalid generators, the imported ones are the valid ones among
the first `n - z` generators. -/
theorem C15_imported_exactly {α : Type} (bad : α → Bool) (gens : List α)
    (hpos : (gens.filter bad).length < gens.length) :
    ∃ k, importGens bad 0 gens =
      .ok ((gens.take (gens.length - (gens.filter bad).length)).filter (fun g => !bad g)) k := by
  have key : ∀ (x : Int) (b : Nat) (k : Int), x.toNat = b →
      (Outcome.ok ((gens.take x.toNat).filter (fun g => !bad g)) k) =
        .ok ((gens.take b).filter (fun g => !bad g)) k := by
    intro x b k h; rw [h]
  unfold importGens
  simp only [Nat.cast_zero, sub_zero]
  by_cases h0 : ((gens.filter bad).length : Int) = 0
  · rw [if_pos h0, if_pos h0, if_neg (by omega), if_neg (by norm_num)]
    exact ⟨_, key _ _ _ (by omega)⟩
  · rw [if_neg h0, if_neg h0, if_neg (by omega), if_neg (by rw [if_neg (by omega)]; norm_num)]
    exact ⟨_, key _ _ _ (by omega)⟩

/-- C15, restricted to inputs whose invalid generators (if any) come last: every valid generator is
imported, in order, and the recorded number of generators is their number. -/
theorem C15_no_generator_lost_partial {α : Type} (bad : α → Bool) (good zs : List α) (hne : good ≠ [])
    (hg : ∀ g ∈ good, bad g = false) (hz : ∀ g ∈ zs, bad g = true) :
    importGens bad 0 (good ++ zs) = .ok good good.length := by
  have hlen : 0 < good.length := List.length_pos_iff.mpr hne
  have hf : (good ++ zs).filter bad = zs := by
    rw [List.filter_append, List.filter_eq_nil_iff.mpr (fun a ha => by simp [hg a ha]), List.nil_append,
      List.filter_eq_self.mpr hz]
  have hk : good.filter bad = [] := List.filter_eq_nil_iff.mpr (fun a ha => by simp [hg a ha])
  have hs : good.filter (fun g => !bad g) = good := List.filter_eq_self.mpr (fun a ha => by simp [hg a ha])
  unfold importGens
  simp only [hf, Nat.cast_zero, sub_zero, List.length_append, Nat.cast_add]
  by_cases h0 : (zs.length : Int) = 0
  · have : zs = [] := List.length_eq_zero_iff.mp (by omega)
    subst this
    rw [if_pos h0, if_pos h0, if_neg (by omega), if_neg (by norm_num)]
    simp [hs, hk]
  · rw [if_neg h0, if_neg h0, if_neg (by omega), if_neg (by rw [if_neg (by omega)]; norm_num)]
    have e : ((good.length : Int) + zs.length - zs.length).toNat = good.length := by omega
    rw [e, List.take_left', hs, hk]
    · simp
    · rfl

/-- Two valid generators followed by an invalid one. -/
example : importGens invalid 0 [[1, 2], [3], [1, 0]] = .ok [[1, 2], [3]] 2 := by decide

/-! ### C16 -/

/-- C16, restricted to coefficients `c ≥ -p` and characteristics below 2^31 fitting the coefficient type:
the stored coefficient is the canonical residue. -/
theorem C16_coefficient_import_partial (w fc : Nat) (c : Int) (h0 : 0 < fc) (hfc : fc < 2 ^ 31)
    (hw : fc ≤ 2 ^ w) (h1 : -(fc : Int) ≤ c) (h2 : c < 2 ^ 31) :
    (importCoeff w fc c : Int) = c % fc :=
  importCoeff_spec w fc c h0 hfc hw h1 h2

/-- C16 is false below `-p`: over `Z/7Z` the coefficient `-8` is stored as `3` and not as `6`. -/
theorem C16_large_negative_coefficient :
    importCoeff 8 7 (-8) = 3 ∧ ((-8 : Int) % 7) = 6 := by
  constructor <;> decide

/-- C16 over the rationals: the imported integer coefficients are the rational ones times one common nonzero
factor, the product of the denominators. -/
theorem C16_rational_import (cs : List (Int × Int)) (hd : ∀ c ∈ cs, c.2 ≠ 0) :
    ((cs.map Prod.snd).prod ≠ 0) ∧
    (importRat cs).map (fun x : Int => (x : ℚ)) =
      cs.map (fun c => ((cs.map Prod.snd).prod : ℚ) * ((c.1 : ℚ) / c.2)) := by
  have hprod : (cs.map Prod.snd).prod ≠ 0 := by
    apply List.prod_ne_zero
    intro h
    rw [List.mem_map] at h
    obtain ⟨c, hc, h0⟩ := h
    exact hd c hc h0
  refine ⟨hprod, ?_⟩
  unfold importRat
  simp only [List.map_map]
  apply List.map_congr_left
  intro c hc
  simp only [Function.comp_apply]
  rw [importRat_prod, one_mul]
  have hdvd : c.2 ∣ (cs.map Prod.snd).prod := List.dvd_prod (List.mem_map_of_mem hc)
  have hq : (c.2 : ℚ) ≠ 0 := by exact_mod_cast hd c hc
  rw [Int.cast_mul, Int.cast_div hdvd hq]
  field_simp

example : importCoeff 16 65521 (-65521) = 0 ∧ importCoeff 16 65521 2147483647 = 2147483647 % 65521 ∧
    importRat [(1, 2), (-3, 4)] = [4, -6] := by decide

/-! ### C17 -/

/-- C17, restricted to characteristics below 2^31: every residue fits the chosen width. -/
theorem C17_width_partial (fc : Nat) (h0 : 0 < fc) (hfc : fc < 2 ^ 31) :
    0 < ffBits fc ∧ ∀ r < fc, r < 2 ^ ffBits fc := by
  have ht : toInt32 fc = fc := by
    unfold toInt32
    simp only
    rw [Int.emod_eq_of_lt (by omega) (by omega), if_pos (by omega)]
  unfold ffBits
  simp only [ht]
  rw [if_neg (by omega)]
  split_ifs <;> refine ⟨by norm_num, fun r hr => ?_⟩ <;> norm_num at * <;> omega

/-- C17: characteristic 0 selects rational arithmetic. -/
theorem C17_zero (fc : Nat) (hfc : fc < 2 ^ 32) : ffBits fc = 0 ↔ fc = 0 := by
  unfold ffBits toInt32
  simp only
  have h1 : (fc : Int) % 2 ^ 32 = fc := Int.emod_eq_of_lt (by omega) (by omega)
  rw [h1]
  split_ifs <;> norm_num <;> omega

/-- C17 is false for every accepted characteristic from 2^31 on: the chosen width is 8 bits. -/
theorem C17_large_characteristic (fc : Nat) (h1 : 2 ^ 31 ≤ fc) (h2 : charAccepted fc = true) :
    ffBits fc = 8 := by
  unfold charAccepted at h2
  rw [decide_eq_true_iff] at h2
  have ht : toInt32 fc = fc - 2 ^ 32 := by
    unfold toInt32
    simp only
    rw [Int.emod_eq_of_lt (by omega) (by omega), if_neg (by omega)]
  unfold ffBits
  simp only [ht]
  rw [if_neg (by omega), if_pos (by omega)]

example : ffBits 255 = 8 ∧ ffBits 257 = 16 ∧ ffBits 65537 = 32 ∧ ffBits 2147483647 = 32 ∧
    charAccepted 4294967291 = true := by decide

/-! ### C18 -/

/-- C18: let `σ` be the sorting permutation delivered by `sort_r` for a comparison `cmp` of monomials
(a permutation of the indices, listing the terms in non-descending order of `cmp`). Then both the
finite field and the rational version of the in-place sort stop, the new terms are a permutation
of the old pairs of coefficient and monomial, and they are ordered. -/
theorem C18_sort_terms {κ μ : Type} (len : Nat) (cf : Nat → κ × μ) (σ : Nat → Nat) (cmp : μ → μ → Int)
    (hσ : ∀ m < len, σ m < len) (hinj : ∀ a < len, ∀ b < len, σ a = σ b → a = b)
    (hsorted : ∀ i j, i < j → j < len → cmp (cf (σ i)).2 (cf (σ j)).2 ≤ 0) (tmp : κ × μ) :
    ∃ cf', sortTerms len cf σ = some cf' ∧ sortTermsQ len cf σ tmp = some cf' ∧
      ((List.range len).map cf').Perm ((List.range len).map cf) ∧
      ∀ i j, i < j → j < len → cmp (cf' i).2 (cf' j).2 ≤ 0 := by
  obtain ⟨cf', h, hs⟩ := sortTerms_spec len cf σ hσ hinj
  refine ⟨cf', h, by rw [sortTermsQ_eq, h], ?_, ?_⟩
  · have e : (List.range len).map cf' = ((List.range len).map σ).map cf := by
      rw [List.map_map]
      apply List.map_congr_left
      intro i hi
      exact hs i (List.mem_range.mp hi)
    rw [e]
    apply List.Perm.map
    have hnd : ((List.range len).map σ).Nodup := by
      rw [List.nodup_map_iff_inj_on List.nodup_range]
      intro a ha b hb hab
      exact hinj a (List.mem_range.mp ha) b (List.mem_range.mp hb) hab
    have hsub : (List.range len).map σ ⊆ List.range len := by
      intro x hx
      rw [List.mem_map] at hx
      obtain ⟨a, ha, rfl⟩ := hx
      exact List.mem_range.mpr (hσ a (List.mem_range.mp ha))
    exact (List.subperm_of_subset hnd hsub).perm_of_length_le (by simp)
  · intro i j hij hj
    rw [hs i (by omega), hs j hj]
    exact hsorted i j hij hj

/-- C18 for the degree reverse lexicographical order: with pairwise different monomials of degree below 2^16
the sorted terms are strictly decreasing. -/
theorem C18_strictly_decreasing {κ : Type} {n : Nat} (hn : 1 ≤ n) (len : Nat) (cf : Nat → κ × (Fin n → ℕ)) (σ : Nat → Nat)
    (hσ : ∀ m < len, σ m < len) (hinj : ∀ a < len, ∀ b < len, σ a = σ b → a = b)
    (hdeg : ∀ m < len, ∑ i, (cf m).2 i < 65536) (buf : Nat → Nat)
    (hdist : ∀ a < len, ∀ b < len, (cf a).2 = (cf b).2 → a = b)
    (hsorted : ∀ i j, i < j → j < len →
      initialGensCmpDrl (evl n 0) (setEv n 0 (ext (cf (σ i)).2) buf) (setEv n 0 (ext (cf (σ j)).2) buf) ≤ 0) :
    ∃ cf', sortTerms len cf σ = some cf' ∧
      ((List.range len).map cf').Perm ((List.range len).map cf) ∧
      ∀ i j, i < j → j < len → Verif.Spec.Drl (cf' j).2 (cf' i).2 := by
  obtain ⟨cf', h, -, hp, -⟩ := C18_sort_terms len cf σ
    (fun u v => initialGensCmpDrl (evl n 0) (setEv n 0 (ext u) buf) (setEv n 0 (ext v) buf)) hσ hinj hsorted
    (cf 0)
  obtain ⟨cf'', h', hs⟩ := sortTerms_spec len cf σ hσ hinj
  have : cf'' = cf' := by rw [h] at h'; exact (Option.some.inj h').symm
  subst this
  refine ⟨cf'', h, hp, fun i j hij hj => ?_⟩
  rw [hs i (by omega), hs j hj]
  have hs1 := hsorted i j hij hj
  rw [initialGensCmpDrl_eq] at hs1
  have hi := hdeg _ (hσ i (by omega))
  have hj' := hdeg _ (hσ j hj)
  obtain ⟨c1, c2, -⟩ := C07_drl_comparison hn (cf (σ i)).2 (cf (σ j)).2 buf buf hi hj'
  apply c1.mp
  rcases lt_or_eq_of_le (neg_nonpos.mp hs1) with h0 | h0
  · exact h0
  · exfalso
    have := hinj i (by omega) j hj (hdist _ (hσ i (by omega)) _ (hσ j hj) (c2.mp h0.symm))
    omega

/-- The terms `(1, x), (2, y), (3, z)` and the permutation `1 -> 2 -> 0 -> 1`. -/
example : (sortTerms 3 (fun i => (i + 1, i)) (fun i => (i + 1) % 3)).map (fun c => (List.range 3).map c) =
    some [(2, 1), (3, 2), (1, 0)] := by decide

example : let cf : Nat → Int × (Fin 1 → ℕ) := fun i => (5, fun _ => i)
    ∀ i j, i < j → j < 3 → initialGensCmpDrl (evl 1 0) (setEv 1 0 (ext (cf (2 - i)).2) id)
      (setEv 1 0 (ext (cf (2 - j)).2) id) ≤ 0 := by
  intro cf i j hij hj
  have : (i = 0 ∧ j = 1) ∨ (i = 0 ∧ j = 2) ∨ (i = 1 ∧ j = 2) := by omega
  rcases this with ⟨rfl, rfl⟩ | ⟨rfl, rfl⟩ | ⟨rfl, rfl⟩ <;> decide

end Verif.Props
