import Verif.Fglm
import Verif.LinForms

/-! Model of the assembly of a parametrization, src/fglm/fglm_core.c 959-1037 (set_param_linear_vars) and 1045-1110
(compute_parametrizations). -/

namespace Verif.Fglm

open Polynomial Verif.BM Verif.Spec Verif.Hankel Verif.LinForms

variable {K : Type*} [Field K]

/-- The loop over the variables, fglm_core.c 1071-1098: the columns of the table for the variables that are not linear,
zero for the others; `s.2` is `dec`. -/
noncomputable def coordStep (elim Z1 Z2 : K[X]) (dim : ℕ) (res : ℕ → ℕ → K) (linvars : ℕ → ℕ) (nv : ℕ)
    (s : (ℕ → K[X]) × ℕ) (nc : ℕ) : (ℕ → K[X]) × ℕ :=
  if linvars (nv - 2 - nc) = 0 then
    (Function.update s.1 (nv - 2 - nc) (coordShape elim Z1 Z2 dim fun i => res i (nc + 2 - s.2 - 1)), s.2)
  else (Function.update s.1 (nv - 2 - nc) 0, s.2 + 1)

noncomputable def coordLoop (elim Z1 Z2 : K[X]) (dim : ℕ) (res : ℕ → ℕ → K) (linvars : ℕ → ℕ) (nv : ℕ) : ℕ → K[X] :=
  ((List.range (nv - 1)).foldl (coordStep elim Z1 Z2 dim res linvars nv) (fun _ => 0, 0)).1

/-- The coordinate of a linear variable, fglm_core.c 979-1027; `row` is its row of `lineqs`.  The in-place
accumulation of the code (also of the entry `ind` itself) is kept; terms with `c = 0`, which the code skips, add
zero. -/
noncomputable def linCoord (elim : K[X]) (nv : ℕ) (row : ℕ → K) (coords : ℕ → K[X]) (ind : ℕ) : ℕ → K[X] :=
  let cs := (List.range (nv - 2)).foldl
    (fun cs j => Function.update cs ind (C (-row (j + 1)) * cs (j + 1) + cs ind)) (Function.update coords ind 0)
  Function.update cs ind ((cs ind + C (row (nv - 1)) * X + C (row nv)) % elim)

/-- One turn of the loop of `set_param_linear_vars`, fglm_core.c 975-1031; `s.2` is `cnt`. -/
noncomputable def setStep (elim : K[X]) (nv nr : ℕ) (linvars : ℕ → ℕ) (lineqs : ℕ → K) (s : (ℕ → K[X]) × ℕ) (nc : ℕ) :
    (ℕ → K[X]) × ℕ :=
  if linvars nc ≠ 0 then (linCoord elim nv (fun k => lineqs (k + (nv + 1) * (nr - (s.2 - 1) - 1))) s.1 nc, s.2 + 1)
  else s

/-- `set_param_linear_vars`, fglm_core.c 959-1037. -/
noncomputable def setLinear (nlins : ℕ) (linvars : ℕ → ℕ) (lineqs : ℕ → K) (nv : ℕ) (elim : K[X]) (coords : ℕ → K[X]) :
    K[X] × (ℕ → K[X]) :=
  let nr := if nlins = nv then nv - 1 else nlins
  let elim := if nlins = nv then X + C (lineqs (nlins * (nv + 1) - 1)) else elim
  (elim, ((List.range (nv - 1)).reverse.foldl (setStep elim nv nr linvars lineqs) (coords, 1)).1)

/-- `compute_parametrizations`, fglm_core.c 1045-1110 (`none`: the return value 0; the other outcomes of the inversion
are kept). -/
noncomputable def params (inv : Hankel.Inv K) (dim : ℕ) (res : ℕ → ℕ → K) (nlins : ℕ) (linvars : ℕ → ℕ) (lineqs : ℕ → K)
    (nv : ℕ) (elim : K[X]) : Option (K[X] × (ℕ → K[X])) :=
  if nlins = nv then some (setLinear nlins linvars lineqs nv elim (coordLoop elim 0 0 dim res linvars nv))
  else match inv with
    | .ok Z1 Z2 => some (setLinear nlins linvars lineqs nv elim (coordLoop elim Z1 Z2 dim res linvars nv))
    | _ => none

/-! ### Linear variables -/

theorem linCoord_ne (elim : K[X]) (nv : ℕ) (row : ℕ → K) (coords : ℕ → K[X]) {ind w : ℕ} (h : w ≠ ind) :
    linCoord elim nv row coords ind w = coords w := by
  unfold linCoord
  rw [Function.update_of_ne h]
  have : ∀ m, (List.range m).foldl (fun cs j => Function.update cs ind (C (-row (j + 1)) * cs (j + 1) + cs ind))
      (Function.update coords ind 0) w = coords w := by
    intro m
    induction m with
    | zero => exact Function.update_of_ne h _ _
    | succ m ih => rw [List.range_succ, List.foldl_append, List.foldl_cons, List.foldl_nil, Function.update_of_ne h, ih]
  exact this _

theorem linCoord_self (elim : K[X]) (nv : ℕ) (row : ℕ → K) (coords : ℕ → K[X]) {ind : ℕ} (h0 : ∀ k, k < ind → row k = 0) :
    linCoord elim nv row coords ind ind =
      (∑ k ∈ (Finset.Ico 1 (nv - 1)).filter (ind < ·), C (-row k) * coords k + C (row (nv - 1)) * X + C (row nv)) % elim := by
  unfold linCoord
  rw [Function.update_self]
  have : ∀ m, (List.range m).foldl (fun cs j => Function.update cs ind (C (-row (j + 1)) * cs (j + 1) + cs ind))
      (Function.update coords ind 0) =
        Function.update coords ind (∑ k ∈ (Finset.Ico 1 (m + 1)).filter (ind < ·), C (-row k) * coords k) := by
    intro m
    induction m with
    | zero => simp
    | succ m ih =>
      rw [List.range_succ, List.foldl_append, List.foldl_cons, List.foldl_nil, ih, Function.update_idem, Function.update_self,
        show Finset.Ico 1 (m + 1 + 1) = insert (m + 1) (Finset.Ico 1 (m + 1)) by
          ext k; simp only [Finset.mem_insert, Finset.mem_Ico]; omega, Finset.filter_insert]
      congr 1
      rcases Nat.lt_trichotomy (m + 1) ind with h | h | h
      · rw [h0 _ h, if_neg (by omega)]
        simp
      · rw [if_neg (by omega), h, Function.update_self]
        have hz : ∑ k ∈ (Finset.Ico 1 ind).filter (ind < ·), C (-row k) * coords k = 0 := by
          rw [Finset.filter_eq_empty_iff.mpr, Finset.sum_empty]
          intro k hk
          rw [Finset.mem_Ico] at hk
          omega
        rw [hz, mul_zero, zero_add]
      · rw [if_pos h, Function.update_of_ne (by omega), Finset.sum_insert (by simp)]
  rw [this]
  rw [Function.update_self]
  by_cases hn : nv - 2 + 1 = nv - 1
  · rw [hn]
  · rw [show nv - 2 = 0 by omega]
    rw [show (Finset.Ico 1 (0 + 1)) = ∅ by simp, show (Finset.Ico 1 (nv - 1)) = ∅ by rw [Finset.Ico_eq_empty]; omega]

variable {A : Type*} [CommRing A] [Algebra K A] {n : ℕ} {lml : ℕ} {P : ℕ → List ((Fin n → ℕ) × K)}

theorem prod_var (x : Fin n → A) (k : Fin n) : ∏ i, x i ^ (var k : Fin n → ℕ) i = x k := by
  rw [Finset.prod_eq_single k]
  · simp [var]
  · intro i _ hi
    simp [var, hi]
  · simp

/-- Value of a linear form. -/
theorem evalAt_lin {ts : List ((Fin n → ℕ) × K)} (h : ∀ t ∈ ts, IsLin t.1) (x : Fin n → A) :
    evalAt ts x = ∑ k, algebraMap K A (coeffAt ts (var k)) * x k + algebraMap K A (coeffAt ts 0) := by
  induction ts with
  | nil => simp [evalAt, coeffAt]
  | cons t ts ih =>
    have ih := ih fun t' ht' => h t' (by simp [ht'])
    have e1 : evalAt (t :: ts) x = algebraMap K A t.2 * ∏ i, x i ^ t.1 i + evalAt ts x := by simp [evalAt]
    have e2 : ∀ m, coeffAt (t :: ts) m = (if t.1 = m then t.2 else 0) + coeffAt ts m := by
      intro m
      simp [coeffAt]
    rw [e1, ih]
    simp only [e2, map_add, add_mul, Finset.sum_add_distrib]
    rcases h t (by simp) with ⟨k, hk⟩ | h0
    · have hs : ∑ l, algebraMap K A (if t.1 = var l then t.2 else 0) * x l = algebraMap K A t.2 * x k := by
        rw [Finset.sum_eq_single k]
        · rw [if_pos hk]
        · intro l _ hl
          rw [if_neg (fun he => hl (var_inj (hk.symm.trans he)).symm), map_zero, zero_mul]
        · simp
      rw [hs, hk, prod_var, if_neg (var_ne_zero k), map_zero]
      ring
    · have hs : ∑ l, algebraMap K A (if t.1 = var l then t.2 else 0) * x l = 0 := by
        refine Finset.sum_eq_zero fun l _ => ?_
        rw [if_neg (fun he => var_ne_zero l (he.symm.trans h0)), map_zero, zero_mul]
      rw [hs, h0, if_pos rfl]
      simp only [Pi.zero_apply, pow_zero, Finset.prod_const_one]
      ring

theorem aeval_mod {e : K[X]} {x : A} (h : aeval x e = 0) (f : K[X]) : aeval x (f % e) = aeval x f := by
  conv_rhs => rw [← EuclideanDomain.div_add_mod f e, map_add, map_mul, h, zero_mul, zero_add]

theorem coeff_above (h : Reduced lml P) {i : ℕ} (hi : i < lml) {v k : Fin n} (hv : lead (P i) = var v) (hk : k < v) :
    coeffAt (P i) (var k) = 0 := by
  apply coeffAt_eq_zero
  intro t ht he
  obtain ⟨s, ts, hp, hs⟩ := h.head hi
  have hsort := h.sorted i hi
  rw [hp] at ht hsort
  rw [hv] at hs
  rcases List.mem_cons.mp ht with rfl | ht
  · exact hk.ne (var_inj (he.symm.trans hs.symm))
  · have := (List.pairwise_cons.mp hsort).1 t ht
    rw [← hs, he] at this
    exact Orders.drl_admissible.irrefl _ (Orders.drl_admissible.trans _ _ _ this (drl_var hk))

theorem coeff_lead (h : Reduced lml P) {i : ℕ} (hi : i < lml) (hmon : ∀ s, (P i).head? = some s → s.2 = 1) :
    coeffAt (P i) (lead (P i)) = 1 := by
  obtain ⟨s, ts, hp, hs⟩ := h.head hi
  have := coeffAt_eq_of_nodup (h.nodup hi) (q := 0) (by rw [hp]; simp)
  have e : (P i)[0]'(by rw [hp]; simp) = s := by simp [hp]
  rw [e] at this
  rw [hs, this]
  exact hmon s (by rw [hp]; rfl)

/-- A linear variable from its row. -/
theorem linCoord_spec (h : Reduced lml P) {i : ℕ} (hi : i < lml) (hmon : ∀ s, (P i).head? = some s → s.2 = 1)
    {v last : Fin n} (hlast : last.val = n - 1) (hvl : v < last) (hv : lead (P i) = var v) {x : Fin n → A}
    (hx : evalAt (P i) x = 0) {row : ℕ → K} (hrow : ∀ k : Fin n, row k = coeffAt (P i) (var k))
    (hrow0 : row n = coeffAt (P i) 0) {elim : K[X]} (helim : aeval (x last) elim = 0) {coords : ℕ → K[X]}
    (hc : ∀ k : Fin n, v < k → k < last → x k + aeval (x last) (coords k) = 0) :
    x v + aeval (x last) (linCoord elim n row coords v v) = 0 := by
  have hn : 2 ≤ n := by
    have := v.2
    have := last.2
    have : v.val < last.val := hvl
    omega
  rw [linCoord_self, aeval_mod helim, map_add, map_add, map_mul, aeval_C, aeval_C, aeval_X, map_sum]
  · rw [evalAt_lin (h.lin hi hv)] at hx
    have hsum : ∑ k, algebraMap K A (coeffAt (P i) (var k)) * x k =
        x v + ∑ k ∈ (Finset.Ico 1 (n - 1)).filter (v.val < ·), aeval (x last) (C (-row k) * coords k) +
          algebraMap K A (row (n - 1)) * x last := by
      have e1 : ∀ k : Fin n, algebraMap K A (coeffAt (P i) (var k)) * x k =
          if hk : k.val < n then algebraMap K A (row k) * x ⟨k.val, hk⟩ else 0 := by
        intro k
        rw [dif_pos k.2, hrow]
      rw [Finset.sum_congr rfl fun k _ => e1 k,
        ← Finset.sum_range (fun k : ℕ => if hk : k < n then algebraMap K A (row k) * x ⟨k, hk⟩ else 0),
        show Finset.range n = Finset.range ((n - 1) + 1) by congr 1; omega, Finset.sum_range_succ]
      congr 1
      · have hvn : v.val < n - 1 := by rw [← hlast]; exact hvl
        rw [← Finset.add_sum_erase _ _ (Finset.mem_range.mpr hvn), dif_pos v.2]
        congr 1
        · rw [hrow v, ← hv, coeff_lead h hi hmon, map_one, one_mul]
        · symm
          apply Finset.sum_subset_zero_on_sdiff
          · intro k hk
            simp only [Finset.mem_filter, Finset.mem_Ico, Finset.mem_erase, Finset.mem_range] at *
            omega
          · intro k hk
            simp only [Finset.mem_sdiff, Finset.mem_filter, Finset.mem_Ico, Finset.mem_erase, Finset.mem_range] at hk
            have hkv : k < v.val := by omega
            rw [dif_pos (by omega), show row k = 0 from ?_, map_zero, zero_mul]
            have := hrow ⟨k, by omega⟩
            rw [coeff_above h hi hv (show (⟨k, by omega⟩ : Fin n) < v from hkv)] at this
            exact this
          · intro k hk
            simp only [Finset.mem_filter, Finset.mem_Ico] at hk
            rw [dif_pos (by omega), map_mul, aeval_C, map_neg]
            have := hc ⟨k, by omega⟩ hk.2 (by show k < last.val; omega)
            linear_combination (-algebraMap K A (row k)) * this
      · rw [dif_pos (by omega), show (⟨n - 1, _⟩ : Fin n) = last from Fin.ext hlast.symm]
    rw [hsum, ← hrow0] at hx
    linear_combination hx
  · intro k hk
    have := hrow ⟨k, by have := v.2; omega⟩
    rw [coeff_above h hi hv (show (⟨k, by have := v.2; omega⟩ : Fin n) < v from hk)] at this
    exact this

/-- Number of linear variables other than the last one. -/
theorem nr_eq (h : Reduced lml P) {last : Fin n} (hlast : last.val = n - 1)
    (hl : LinVar lml P last → ∀ k, LinVar lml P k) :
    (if (linVars n lml (lmRow P)).2 = n then n - 1 else (linVars n lml (lmRow P)).2) = rank lml P (n - 1) := by
  classical
  rw [nlins_spec h]
  have hn : 1 ≤ n := by
    have := last.2
    omega
  have hr := rank_succ (lml := lml) (P := P) last
  rw [hlast, Nat.sub_add_cancel hn] at hr
  by_cases hll : LinVar lml P last
  · have hall := hl hll
    have h1 : rank lml P n = n := by
      unfold rank
      rw [Finset.filter_true_of_mem fun k _ => ⟨k.2, hall k⟩, Finset.card_univ, Fintype.card_fin]
    rw [if_pos h1]
    have := hr.1 hll
    omega
  · rw [hr.2 hll]
    have h1 : rank lml P (n - 1) ≤ n - 1 := by
      unfold rank
      have : (Finset.univ.filter fun k : Fin n => k.val < n - 1 ∧ LinVar lml P k) ⊆ Finset.univ.erase last := by
        intro k hk
        simp only [Finset.mem_filter, Finset.mem_univ, true_and, Finset.mem_erase, and_true] at *
        rintro rfl
        omega
      have := Finset.card_le_card this
      rwa [Finset.card_erase_of_mem (Finset.mem_univ _), Finset.card_univ, Fintype.card_fin] at this
    rw [if_neg (by omega)]

theorem setStep_spec (h : Reduced lml P) (hmon : ∀ i, i < lml → ∀ s, (P i).head? = some s → s.2 = 1)
    {last : Fin n} (hlast : last.val = n - 1) {x : Fin n → A}
    (hx : ∀ i, i < lml → evalAt (P i) x = 0) {lineqs : ℕ → K}
    (hrows : ∀ i v, i < lml → lead (P i) = var v → ∀ u, IsLin u → lineqs (rank lml P v * (n + 1) + pos u) = coeffAt (P i) u)
    {elim : K[X]} (helim : aeval (x last) elim = 0) {m : ℕ} (hmn : m < n) (hm : m + 1 ≤ n - 1) {s : (ℕ → K[X]) × ℕ}
    (hcnt : s.2 + rank lml P (m + 1) = rank lml P (n - 1) + 1)
    (hs : ∀ k : Fin n, k < last → (¬ LinVar lml P k ∨ m + 1 ≤ k.val) → x k + aeval (x last) (s.1 k) = 0) :
    (setStep elim n (rank lml P (n - 1)) (linVars n lml (lmRow P)).1 lineqs s m).2 + rank lml P m = rank lml P (n - 1) + 1 ∧
    ∀ k : Fin n, k < last → (¬ LinVar lml P k ∨ m ≤ k.val) → x k + aeval (x last)
      ((setStep elim n (rank lml P (n - 1)) (linVars n lml (lmRow P)).1 lineqs s m).1 k) = 0 := by
  have hrk := rank_succ (lml := lml) (P := P) ⟨m, hmn⟩
  simp only at hrk
  unfold setStep
  by_cases hlin : LinVar lml P ⟨m, hmn⟩
  · obtain ⟨i, hi, hv⟩ := hlin
    have hlv : (linVars n lml (lmRow P)).1 m = i + 1 := ((linVars_spec h ⟨m, hmn⟩).1 i).mpr ⟨hi, hv⟩
    rw [if_pos (by omega)]
    have hrk := hrk.1 ⟨i, hi, hv⟩
    have hmono := rank_mono (lml := lml) (P := P) hm
    have hrow : rank lml P (n - 1) - (s.2 - 1) - 1 = rank lml P m := by omega
    rw [hrow]
    simp only
    refine ⟨by omega, fun k hk hor => ?_⟩
    by_cases hkm : k.val = m
    · subst hkm
      refine linCoord_spec h hi (hmon i hi) hlast hk hv (hx i hi) ?_ ?_ helim ?_
      · intro k'
        have := hrows i k hi hv (var k') (Or.inl ⟨k', rfl⟩)
        rw [pos_var] at this
        rw [← this]
        congr 1
        ring
      · have := hrows i k hi hv 0 (Or.inr rfl)
        rw [pos_zero] at this
        rw [← this]
        congr 1
        ring
      · intro k' hkk' hkl
        exact hs k' hkl (Or.inr hkk')
    · rw [linCoord_ne _ _ _ _ hkm]
      apply hs k hk
      rcases hor with h1 | h1
      · exact Or.inl h1
      · exact Or.inr (by omega)
  · have hlv : (linVars n lml (lmRow P)).1 m = 0 := by
      rw [show m = (⟨m, hmn⟩ : Fin n).val from rfl]
      exact ((linVars_spec h _).2).mpr fun i' hi' he => hlin ⟨i', hi', he⟩
    rw [if_neg (fun hc => hc hlv)]
    refine ⟨by rw [← hrk.2 hlin]; exact hcnt, fun k hk hor => ?_⟩
    apply hs k hk
    rcases hor with h1 | h1
    · exact Or.inl h1
    · by_cases hkm : k.val = m
      · subst hkm
        exact Or.inl hlin
      · exact Or.inr (by omega)

/-- All linear variables from their rows. -/
theorem setLinear_spec (h : Reduced lml P) (hmon : ∀ i, i < lml → ∀ s, (P i).head? = some s → s.2 = 1)
    {last : Fin n} (hlast : last.val = n - 1) (hl : LinVar lml P last → ∀ k, LinVar lml P k) {x : Fin n → A}
    (hx : ∀ i, i < lml → evalAt (P i) x = 0) {lineqs : ℕ → K}
    (hrows : ∀ i v, i < lml → lead (P i) = var v → ∀ u, IsLin u → lineqs (rank lml P v * (n + 1) + pos u) = coeffAt (P i) u)
    {elim : K[X]} {coords : ℕ → K[X]} {r : K[X] × (ℕ → K[X])}
    (hr : r = setLinear (linVars n lml (lmRow P)).2 (linVars n lml (lmRow P)).1 lineqs n elim coords)
    (helim : aeval (x last) r.1 = 0)
    (hc : ∀ k : Fin n, k < last → ¬ LinVar lml P k → x k + aeval (x last) (coords k) = 0) :
    ∀ k : Fin n, k < last → x k + aeval (x last) (r.2 k) = 0 := by
  have hnr := nr_eq h hlast hl
  unfold setLinear at hr
  simp only at hr
  rw [hnr] at hr
  have he : r.1 = if (linVars n lml (lmRow P)).2 = n then X + C (lineqs ((linVars n lml (lmRow P)).2 * (n + 1) - 1)) else elim := by
    rw [hr]
  rw [← he] at hr
  have key : ∀ m, m ≤ n - 1 → ∀ s : (ℕ → K[X]) × ℕ, s.2 + rank lml P m = rank lml P (n - 1) + 1 →
      (∀ k : Fin n, k < last → (¬ LinVar lml P k ∨ m ≤ k.val) → x k + aeval (x last) (s.1 k) = 0) →
      ∀ k : Fin n, k < last → x k + aeval (x last) (((List.range m).reverse.foldl
        (setStep r.1 n (rank lml P (n - 1)) (linVars n lml (lmRow P)).1 lineqs) s).1 k) = 0 := by
    intro m
    induction m with
    | zero => exact fun _ s _ hs k hk => hs k hk (Or.inr (Nat.zero_le _))
    | succ m ih =>
      intro hm s hcnt hs
      rw [List.range_succ, List.reverse_append, List.reverse_singleton, List.singleton_append, List.foldl_cons]
      have hmn : m < n := by omega
      obtain ⟨h1, h2⟩ := setStep_spec h hmon hlast hx hrows helim hmn (by omega) hcnt hs
      exact ih (by omega) _ h1 h2
  have := key (n - 1) (le_refl _) (coords, 1) (by simp only; omega) (fun k hk hor => by
    apply hc k hk
    rcases hor with h1 | h1
    · exact h1
    · have : k.val < last.val := hk
      omega)
  rw [hr]
  exact this

/-! ### The other variables -/

open Classical in
/-- Number of variables from `m` on, without the last one, that are not linear. -/
noncomputable def nonlinFrom (lml : ℕ) (P : ℕ → List ((Fin n → ℕ) × K)) (m : ℕ) : ℕ :=
  (Finset.univ.filter fun k : Fin n => m ≤ k.val ∧ k.val < n - 1 ∧ ¬ LinVar lml P k).card

omit [Field K] in
theorem nonlinFrom_succ (lml : ℕ) (P : ℕ → List ((Fin n → ℕ) × K)) (v : Fin n) (hv : v.val < n - 1) :
    (LinVar lml P v → nonlinFrom lml P v = nonlinFrom lml P (v + 1)) ∧
    (¬ LinVar lml P v → nonlinFrom lml P v = nonlinFrom lml P (v + 1) + 1) := by
  classical
  unfold nonlinFrom
  constructor
  · intro hl
    congr 1
    ext k
    simp only [Finset.mem_filter, Finset.mem_univ, true_and]
    constructor
    · rintro ⟨h1, h2, h3⟩
      refine ⟨?_, h2, h3⟩
      by_contra hc
      have : k = v := Fin.ext (by omega)
      subst this
      exact h3 hl
    · rintro ⟨h1, h2, h3⟩
      exact ⟨by omega, h2, h3⟩
  · intro hl
    rw [show (Finset.univ.filter fun k : Fin n => v.val ≤ k.val ∧ k.val < n - 1 ∧ ¬ LinVar lml P k) =
      insert v (Finset.univ.filter fun k : Fin n => v.val + 1 ≤ k.val ∧ k.val < n - 1 ∧ ¬ LinVar lml P k) from ?_,
      Finset.card_insert_of_notMem]
    · simp
    · ext k
      simp only [Finset.mem_filter, Finset.mem_univ, true_and, Finset.mem_insert, Fin.ext_iff]
      constructor
      · rintro ⟨h1, h2, h3⟩
        by_cases hk : k.val = v.val
        · exact Or.inl hk
        · exact Or.inr ⟨by omega, h2, h3⟩
      · rintro (h1 | ⟨h1, h2, h3⟩)
        · exact ⟨by omega, by omega, by rw [Fin.ext h1]; exact hl⟩
        · exact ⟨by omega, h2, h3⟩

/-- The column used for a variable that is not linear. -/
theorem coordLoop_spec (h : Reduced lml P) (elim Z1 Z2 : K[X]) (dim : ℕ) (res : ℕ → ℕ → K) (v : Fin n) (hv : v.val < n - 1)
    (hl : ¬ LinVar lml P v) :
    coordLoop elim Z1 Z2 dim res (linVars n lml (lmRow P)).1 n v =
      coordShape elim Z1 Z2 dim fun i => res i (nonlinFrom lml P (v + 1) + 1) := by
  have key : ∀ m, m ≤ n - 1 → ∃ cs d, (List.range m).foldl (coordStep elim Z1 Z2 dim res (linVars n lml (lmRow P)).1 n)
      (fun _ => 0, 0) = (cs, d) ∧ d + nonlinFrom lml P (n - 1 - m) = m ∧
      (n - 1 - m ≤ v.val → cs v = coordShape elim Z1 Z2 dim fun i => res i (nonlinFrom lml P (v + 1) + 1)) := by
    intro m
    induction m with
    | zero =>
      refine fun _ => ⟨_, 0, rfl, ?_, fun h0 => absurd h0 (by omega)⟩
      classical
      unfold nonlinFrom
      rw [Nat.zero_add, Finset.card_eq_zero, Finset.filter_eq_empty_iff]
      rintro k - ⟨h1, h2, -⟩
      omega
    | succ m ih =>
      intro hm
      have hm' : m ≤ n - 1 := by omega
      have ih' := ih hm'
      clear ih
      rcases ih' with ⟨cs, d, e1, e2, e3⟩
      rw [List.range_succ, List.foldl_append, e1, List.foldl_cons, List.foldl_nil]
      have hw : n - 2 - m < n := by omega
      have hs := nonlinFrom_succ lml P ⟨n - 2 - m, hw⟩ (by show n - 2 - m < n - 1; omega)
      simp only at hs
      rw [show n - 2 - m + 1 = n - 1 - m by omega] at hs
      rw [show n - 1 - (m + 1) = n - 2 - m by omega]
      unfold coordStep
      by_cases hlin : LinVar lml P ⟨n - 2 - m, hw⟩
      · obtain ⟨i, hi, hv'⟩ := hlin
        have hlv : (linVars n lml (lmRow P)).1 (n - 2 - m) = i + 1 := ((linVars_spec h ⟨n - 2 - m, hw⟩).1 i).mpr ⟨hi, hv'⟩
        rw [if_neg (by omega)]
        refine ⟨_, _, rfl, ?_, fun hle => ?_⟩
        · rw [hs.1 ⟨i, hi, hv'⟩]
          omega
        · have hne : v.val ≠ n - 2 - m := by
            intro he
            apply hl
            rw [show v = ⟨n - 2 - m, hw⟩ from Fin.ext he]
            exact ⟨i, hi, hv'⟩
          rw [Function.update_of_ne hne]
          exact e3 (by omega)
      · have hlv : (linVars n lml (lmRow P)).1 (n - 2 - m) = 0 :=
          ((linVars_spec h ⟨n - 2 - m, hw⟩).2).mpr fun i' hi' he => hlin ⟨i', hi', he⟩
        rw [if_pos hlv]
        refine ⟨_, _, rfl, ?_, fun hle => ?_⟩
        · rw [hs.2 hlin]
          omega
        · by_cases he : v.val = n - 2 - m
          · rw [he, Function.update_self]
            rw [show n - 2 - m + 1 = n - 1 - m by omega]
            simp only
            rw [show m + 2 - d - 1 = nonlinFrom lml P (n - 1 - m) + 1 by omega]
          · rw [Function.update_of_ne he]
            exact e3 (by omega)
  obtain ⟨cs, d, e1, -, e3⟩ := key (n - 1) (le_refl _)
  unfold coordLoop
  rw [e1]
  exact e3 (by omega)

/-! ### The monomial basis -/

open Classical in
theorem sorted_index {L : List (Fin n → ℕ)} (hs : L.Pairwise Drl) {q : ℕ} (hq : q < L.length) :
    (L.toFinset.filter fun b => Drl b L[q]).card = q := by
  have hnd : L.Nodup := by
    unfold List.Nodup
    refine hs.imp fun {a b} h he => ?_
    rw [he] at h
    exact Orders.drl_admissible.irrefl b h
  have : (L.toFinset.filter fun b => Drl b L[q]) = (L.take q).toFinset := by
    ext b
    simp only [Finset.mem_filter, List.mem_toFinset]
    constructor
    · rintro ⟨h1, h2⟩
      obtain ⟨r, hr, rfl⟩ := List.mem_iff_getElem.mp h1
      have hrq : r < q := by
        by_contra hc
        rcases Nat.lt_or_ge q r with h3 | h3
        · exact Orders.drl_admissible.irrefl _ (Orders.drl_admissible.trans _ _ _ (List.pairwise_iff_getElem.mp hs q r hq hr h3) h2)
        · have : r = q := by omega
          subst this
          exact Orders.drl_admissible.irrefl _ h2
      exact List.mem_take_iff_getElem.mpr ⟨r, by omega, rfl⟩
    · intro h1
      obtain ⟨r, hr, rfl⟩ := List.mem_take_iff_getElem.mp h1
      exact ⟨List.getElem_mem _, List.pairwise_iff_getElem.mp hs r q (by omega) hq (by omega)⟩
  rw [this, List.toFinset_card_of_nodup (hnd.sublist (List.take_sublist _ _)), List.length_take]
  omega

/-- Standard monomials. -/
def Std (lml : ℕ) (P : ℕ → List ((Fin n → ℕ) × K)) (m : Fin n → ℕ) : Prop := ∀ i, i < lml → ¬ lead (P i) ≤ m

omit [Field K] in
theorem le_var {u : Fin n → ℕ} {k : Fin n} (h : u ≤ var k) : u = 0 ∨ u = var k := by
  by_cases hk : u k = 0
  · left
    funext j
    have h1 : u j ≤ var k j := h j
    by_cases hj : j = k
    · rw [hj, hk]
      rfl
    · simp only [var, if_neg hj] at h1
      exact Nat.le_zero.mp h1
  · right
    funext j
    have h1 : u j ≤ var k j := h j
    by_cases hj : j = k
    · subst hj
      simp only [var, if_true] at h1 ⊢
      omega
    · simp only [var, if_neg hj] at h1 ⊢
      omega

omit [Field K] in
theorem std_var (h0 : Std lml P 0) (k : Fin n) : Std lml P (var k) ↔ ¬ LinVar lml P k := by
  constructor
  · rintro h ⟨i, hi, he⟩
    exact h i hi he.le
  · intro h i hi hle
    rcases le_var hle with h1 | h1
    · exact h0 i hi h1.le
    · exact h ⟨i, hi, h1⟩

omit [Field K] in
theorem drl_below_var {u : Fin n → ℕ} {v : Fin n} : Drl u (var v) ↔ u = 0 ∨ ∃ k, v < k ∧ u = var k := by
  constructor
  · intro h
    have hl : IsLin u := by
      apply isLin_of_sum
      rcases h with h1 | ⟨h1, -⟩
      · rw [sum_var] at h1
        omega
      · rw [sum_var] at h1
        omega
    rcases hl with ⟨k, rfl⟩ | rfl
    · right
      refine ⟨k, ?_, rfl⟩
      rcases lt_trichotomy k v with h1 | h1 | h1
      · exact absurd (Orders.drl_admissible.trans _ _ _ h (drl_var h1)) (Orders.drl_admissible.irrefl _)
      · rw [h1] at h
        exact absurd h (Orders.drl_admissible.irrefl _)
      · exact h1
    · exact Or.inl rfl
  · rintro (rfl | ⟨k, hk, rfl⟩)
    · exact drl_zero_var v
    · exact drl_var hk

omit [Field K] in
/-- Index of a variable in the monomial basis. -/
theorem basis_index {mb : List (Fin n → ℕ)} (hs : mb.Pairwise Drl) (hmb : ∀ m, m ∈ mb ↔ Std lml P m) {v last : Fin n}
    (hlast : last.val = n - 1) (hvl : v < last) (hl : ¬ LinVar lml P last) (hv : ¬ LinVar lml P v) (h0 : 0 ∈ mb) :
    nonlinFrom lml P (v + 1) + 2 < mb.length ∧ mb.getD (nonlinFrom lml P (v + 1) + 2) 0 = var v := by
  classical
  have hstd0 := (hmb 0).mp h0
  have hmem : var v ∈ mb := (hmb _).mpr ((std_var hstd0 v).mpr hv)
  obtain ⟨q, hq, he⟩ := List.mem_iff_getElem.mp hmem
  have hcard := sorted_index hs hq
  rw [he] at hcard
  have hset : (mb.toFinset.filter fun b => Drl b (var v)) = insert 0 (insert (var last)
      ((Finset.univ.filter fun k : Fin n => v.val + 1 ≤ k.val ∧ k.val < n - 1 ∧ ¬ LinVar lml P k).image var)) := by
    ext u
    simp only [Finset.mem_filter, List.mem_toFinset, Finset.mem_insert, Finset.mem_image, Finset.mem_univ, true_and]
    rw [drl_below_var]
    constructor
    · rintro ⟨h1, h2 | ⟨k, hk, rfl⟩⟩
      · exact Or.inl h2
      · right
        have hk' : ¬ LinVar lml P k := (std_var hstd0 k).mp ((hmb _).mp h1)
        by_cases hkl : k = last
        · exact Or.inl (by rw [hkl])
        · refine Or.inr ⟨k, ⟨hk, ?_, hk'⟩, rfl⟩
          have : k.val ≠ last.val := fun h => hkl (Fin.ext h)
          omega
    · rintro (rfl | rfl | ⟨k, ⟨h1, h2, h3⟩, rfl⟩)
      · exact ⟨h0, Or.inl rfl⟩
      · exact ⟨(hmb _).mpr ((std_var hstd0 _).mpr hl), Or.inr ⟨last, hvl, rfl⟩⟩
      · exact ⟨(hmb _).mpr ((std_var hstd0 _).mpr h3), Or.inr ⟨k, h1, rfl⟩⟩
  rw [hset, Finset.card_insert_of_notMem, Finset.card_insert_of_notMem, Finset.card_image_of_injective _ fun a b => var_inj] at hcard
  · have hq' : nonlinFrom lml P (v + 1) + 2 = q := hcard
    rw [hq']
    refine ⟨hq, ?_⟩
    rw [List.getD_eq_getElem?_getD, List.getElem?_eq_getElem hq, he]
    rfl
  · rw [Finset.mem_image]
    rintro ⟨k, hk, he'⟩
    rw [Finset.mem_filter] at hk
    rw [var_inj he', hlast] at hk
    omega
  · rw [Finset.mem_insert, Finset.mem_image]
    rintro (h1 | ⟨k, -, h1⟩)
    · exact var_ne_zero _ h1.symm
    · exact var_ne_zero _ h1

/-! ### The parametrization in shape position -/

theorem minpoly_linear [Nontrivial A] [Module.Finite K A] {a : A} {c : K} (h : a + algebraMap K A c = 0) :
    X + C c = minpoly K a := by
  have hm : (X + C c : K[X]).Monic := monic_X_add_C c
  have ha : aeval a (X + C c) = 0 := by rw [map_add, aeval_X, aeval_C, h]
  refine eq_of_monic_of_dvd_of_natDegree_le (minpoly.monic (Algebra.IsIntegral.isIntegral a)) hm (minpoly.dvd K a ha) ?_
  rw [natDegree_X_add_C]
  exact minpoly.natDegree_pos (Algebra.IsIntegral.isIntegral a)

/-- Value of the linear form with leading variable the last one. -/
theorem last_linear (h : Reduced lml P) (hmon : ∀ i, i < lml → ∀ s, (P i).head? = some s → s.2 = 1) {last : Fin n}
    (hlast : last.val = n - 1) {x : Fin n → A} (hx : ∀ i, i < lml → evalAt (P i) x = 0) {i : ℕ} (hi : i < lml)
    (hv : lead (P i) = var last) : x last + algebraMap K A (coeffAt (P i) 0) = 0 := by
  have h1 := hx i hi
  rw [evalAt_lin (h.lin hi hv), Finset.sum_eq_single last] at h1
  · rw [← hv, coeff_lead h hi (hmon i hi), map_one, one_mul] at h1
    exact h1
  · intro k _ hk
    have hkl : k < last := by
      rcases lt_trichotomy k last with h2 | h2 | h2
      · exact h2
      · exact absurd h2 hk
      · have : last.val < k.val := h2
        have := k.2
        omega
    rw [coeff_above h hi hv hkl, map_zero, zero_mul]
  · simp

theorem shape (h : Reduced lml P) (hmon : ∀ i, i < lml → ∀ s, (P i).head? = some s → s.2 = 1)
    {last : Fin n} (hlast : last.val = n - 1) {x : Fin n → A} (hx : ∀ i, i < lml → evalAt (P i) x = 0)
    {mb : List (Fin n → ℕ)} (hs : mb.Pairwise Drl) (hmb : ∀ m, m ∈ mb ↔ Std lml P m) (h0 : 0 ∈ mb)
    (B : Module.Basis (Fin mb.length) K A) (hB : ∀ i, B i = ∏ j, x j ^ (mb.getD i 0) j) {M : Mat K}
    (hM : IsMulMat M (fun i => ∏ j, x j ^ (mb.getD i 0) j) (x last)) (hnc : M.ncols = mb.length)
    {lineqs : ℕ → K}
    (hrows : ∀ i v, i < lml → lead (P i) = var v → ∀ u, IsLin u → lineqs (rank lml P v * (n + 1) + pos u) = coeffAt (P i) u)
    (vecinit vvec : ℕ → K) {hg : K[X] → K[X] → HM K} (hhg : HgcdOk hg) {sqf : List (K[X] × ℕ)}
    (hsqf : SqfOk (minPoly hg (M.pts vecinit vvec) mb.length) sqf) {elim : K[X]}
    (helim : elim = sqfPart (minPoly hg (M.pts vecinit vvec) mb.length) mb.length sqf) (hdim : elim.natDegree = mb.length) :
    (params (invert hg (M.pts vecinit vvec) mb.length) mb.length (M.res vecinit vvec) (linVars n lml (lmRow P)).2
      (linVars n lml (lmRow P)).1 lineqs n elim = none ↔
      (linVars n lml (lmRow P)).2 ≠ n ∧ invert hg (M.pts vecinit vvec) mb.length = .other) ∧
    ∀ r, params (invert hg (M.pts vecinit vvec) mb.length) mb.length (M.res vecinit vvec) (linVars n lml (lmRow P)).2
      (linVars n lml (lmRow P)).1 lineqs n elim = some r →
      r.1 = minpoly K (x last) ∧ Squarefree r.1 ∧ ∀ k : Fin n, k < last → x k + aeval (x last) (r.2 k) = 0 := by
  classical
  have hlen : 0 < mb.length := List.length_pos_of_mem h0
  have hstd0 := (hmb 0).mp h0
  have : Module.Finite K A := Module.Finite.of_basis B
  have hfin : Module.finrank K A = mb.length := by rw [Module.finrank_eq_card_basis B, Fintype.card_fin]
  have : Nontrivial A := Module.nontrivial_of_finrank_pos (R := K) (by omega)
  have hn : 1 ≤ n := by have := last.2; omega
  rw [nlins_spec h]
  have hall : rank lml P n = n ↔ ∀ k, LinVar lml P k := by
    unfold rank
    constructor
    · intro hc k
      have h1 : (Finset.univ.filter fun k : Fin n => k.val < n ∧ LinVar lml P k) = Finset.univ :=
        Finset.eq_univ_of_card _ (by rw [hc, Fintype.card_fin])
      have h2 := Finset.mem_univ k
      rw [← h1, Finset.mem_filter] at h2
      exact h2.2.2
    · intro hc
      rw [Finset.filter_true_of_mem fun k _ => ⟨k.2, hc k⟩, Finset.card_univ, Fintype.card_fin]
  unfold params
  by_cases hallc : ∀ k, LinVar lml P k
  · have hr := hall.mpr hallc
    rw [hr, if_pos rfl]
    refine ⟨by simp, fun r hrr => ?_⟩
    have hrr := (Option.some.inj hrr).symm
    obtain ⟨i, hi, hv⟩ := hallc last
    have hlin := last_linear h hmon hlast hx hi hv
    have hr1 : r.1 = X + C (coeffAt (P i) 0) := by
      rw [hrr]
      unfold setLinear
      simp only [if_true]
      rw [← hrows i last hi hv 0 (Or.inr rfl), pos_zero]
      congr 3
      have h1 := (rank_succ (lml := lml) (P := P) last).1 (hallc last)
      rw [hlast, Nat.sub_add_cancel hn, hr] at h1
      have h2 : rank lml P last = n - 1 := by rw [hlast]; omega
      rw [h2]
      obtain ⟨m, rfl⟩ : ∃ m, n = m + 1 := ⟨n - 1, by omega⟩
      simp only [Nat.add_sub_cancel]
      rw [Nat.add_mul]
      omega
    have hr2 : r.1 = minpoly K (x last) := hr1.trans (minpoly_linear hlin)
    refine ⟨hr2, ?_, ?_⟩
    · rw [hr1]
      have := irreducible_X_sub_C (-(coeffAt (P i) 0))
      rw [C_neg, sub_neg_eq_add] at this
      exact this.squarefree
    · have hnl := nlins_spec h
      rw [hr] at hnl
      refine setLinear_spec h hmon hlast (fun _ => hallc) hx hrows (elim := elim)
        (coords := coordLoop elim 0 0 mb.length (M.res vecinit vvec) (linVars n lml (lmRow P)).1 n) (by rw [hnl]; exact hrr) ?_ ?_
      · rw [hr2, minpoly.aeval]
      · intro k _ hk
        exact absurd (hallc k) hk
  · have hr : rank lml P n ≠ n := fun hc => hallc (hall.mp hc)
    rw [if_neg hr]
    -- the dimension is at least two
    have hD2 : 2 ≤ mb.length := by
      obtain ⟨k, hk⟩ := not_forall.mp hallc
      have h1 : var k ∈ mb := (hmb _).mpr ((std_var hstd0 k).mpr hk)
      by_contra hc
      obtain ⟨m, hm⟩ := List.length_eq_one_iff.mp (show mb.length = 1 by omega)
      rw [hm, List.mem_singleton] at h0 h1
      exact var_ne_zero k (h1.trans h0.symm)
    set l : A →ₗ[K] K := B.constr K (fun i : Fin mb.length => vecinit i) with hl
    have hlv : ∀ k, k < M.ncols → vecinit k = l (∏ j, x j ^ (mb.getD k 0) j) := by
      intro k hk
      have := hB ⟨k, by omega⟩
      rw [show ((⟨k, by omega⟩ : Fin mb.length) : ℕ) = k from rfl] at this
      rw [← this, hl, Module.Basis.constr_basis]
    have hb0 : mb.getD 0 0 = 0 := by
      obtain ⟨q, hq, he⟩ := List.mem_iff_getElem.mp h0
      have : q = 0 := by
        by_contra hne
        have h2 := List.pairwise_iff_getElem.mp hs 0 q (by omega) hq (by omega)
        rw [he] at h2
        rcases h2 with h3 | ⟨-, i, -, h4, -⟩
        · simp at h3
        · have h3 : mb[0] ≠ 0 := by
            intro h5
            rw [h5] at h4
            exact Nat.lt_irrefl _ h4
          have h5 := Orders.drl_admissible.one_lt _ h3
          exact Orders.drl_admissible.irrefl _ (Orders.drl_admissible.trans _ _ _ h5
            (he ▸ List.pairwise_iff_getElem.mp hs 0 q (by omega) hq (by omega)))
      subst this
      rw [List.getD_eq_getElem?_getD, List.getElem?_eq_getElem hq, he]
      rfl
    have hseq : (fun i => M.res vecinit vvec i 0) = lseq l (x last) 1 := by
      have := res_eq hM l hlv vvec 0 (Or.inl ⟨rfl, by omega⟩)
      rw [this, if_pos rfl, hb0]
      simp
    have hpl : (M.pts vecinit vvec).length = 2 * mb.length := by rw [pts_length, hnc]
    have hpg : ∀ i, i < 2 * mb.length → (M.pts vecinit vvec).getD i 0 = lseq l (x last) 1 i := by
      intro i hi
      exact pts_getD hseq i (by omega)
    obtain ⟨hmin, hle⟩ := minPoly_seq hhg hfin hpl hpg
    have hVm : (minPoly hg (M.pts vecinit vvec) mb.length).Monic := by
      unfold minPoly
      simp only
      split_ifs
      · exact monic_X
      · exact hmin.1
    obtain ⟨e1, e2, e3, -⟩ := sqfPart_spec hVm hsqf mb.length
    rw [← helim] at e1 e2 e3
    have hVd := natDegree_le_of_dvd e3 hVm.ne_zero
    have hV : minPoly hg (M.pts vecinit vvec) mb.length = elimPoly hg (M.pts vecinit vvec) mb.length := by
      unfold minPoly at hVd ⊢
      simp only at hVd ⊢
      split_ifs at hVd ⊢ with hc
      · rw [natDegree_X] at hVd
        omega
      · rfl
    rw [hV] at hVm e3 hVd
    have hel : elim = elimPoly hg (M.pts vecinit vvec) mb.length := by
      exact (eq_of_monic_of_dvd_of_natDegree_le e1 hVm e3 (by omega)).symm
    have hmp : elim = minpoly K (x last) := by
      rw [hel]
      exact minpoly_of_degree hfin hmin (by omega)
    have hreg : Regular (lseq l (x last) 1) mb.length := by
      have := regular_of_minpoly hmin
      rwa [← hel, hdim] at this
    have hinv := invert_spec hhg (u := lseq l (x last) 1) (pts := M.pts vecinit vvec) hlen (by omega) (fun i hi => hpg i (by omega))
    have hll : ¬ LinVar lml P last := by
      rintro ⟨i, hi, hv⟩
      have h1 := minpoly_linear (last_linear h hmon hlast hx hi hv)
      rw [← hmp] at h1
      rw [← h1, natDegree_X_add_C] at hdim
      omega
    generalize hio : invert hg (M.pts vecinit vvec) mb.length = o at hinv
    cases o with
    | singular => exact absurd hreg hinv.2
    | ub =>
      have := hinv.1
      omega
    | other => exact ⟨by simp [hr], fun r hrr => by simp at hrr⟩
    | ok Z1 Z2 =>
      refine ⟨by simp, fun r hrr => ?_⟩
      have hrr := (Option.some.inj hrr).symm
      have hr1 : r.1 = elim := by
        rw [hrr]
        unfold setLinear
        simp only
        rw [if_neg hr]
      refine ⟨hr1.trans hmp, hr1 ▸ e2, ?_⟩
      refine setLinear_spec h hmon hlast (fun hc => absurd hc hll) hx hrows (elim := elim)
        (coords := coordLoop elim Z1 Z2 mb.length (M.res vecinit vvec) (linVars n lml (lmRow P)).1 n)
        (by rw [nlins_spec h]; exact hrr) ?_ ?_
      · rw [hr1, hmp, minpoly.aeval]
      · intro k hkl hk
        obtain ⟨hb1, hb2⟩ := basis_index hs hmb hlast hkl hll hk h0
        rw [coordLoop_spec h elim Z1 Z2 _ _ k (by have : k.val < last.val := hkl; omega) hk]
        have hcol := res_eq hM l hlv vvec (nonlinFrom lml P (k + 1) + 1) (Or.inr (by omega))
        rw [if_neg (by omega), hb2, prod_var] at hcol
        rw [hcol, hmp]
        exact coordShape_spec hlen hfin (by rw [← hmp, hdim]) hinv (x k)

end Verif.Fglm
