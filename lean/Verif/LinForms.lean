import Verif.Import
import Verif.Spec.LinForm
import Verif.Spec.Monomial
import Verif.Orders

/-! Model of the extraction of linear forms from a Groebner basis, src/msolve/linear.c 27-74 (set_linear_poly_8, the
copies for 16 and 32 bit coefficients are identical) and 205-270 (check_and_set_linear_poly_8, likewise). -/

namespace Verif.LinForms

open Verif.Spec Verif.Orders

variable {n : ℕ} {K : Type*} [Field K]

/-- Exponent read by `check_and_set_linear_poly`: `exp[k + 1]`, linear.c 258-262. -/
def slotCheck (ev : ℕ → ℕ) (k : ℕ) : ℕ := ev (k + 1)

/-- Exponent read by `set_linear_poly`: `etmp[k]`, linear.c 52-59. -/
def slotSet (evl ebl : ℕ) (ev : ℕ → ℕ) (k : ℕ) : ℕ := (Import.exportEv evl ebl ev).getD k 0

/-- One term of a linear form written into its row, linear.c 61-70 and 255-266; `base` is
`cnt * (nv + 1)`. -/
def writeTerm (slot : (ℕ → ℕ) → ℕ → ℕ) (nv base : ℕ) (L : ℕ → K) (t : (ℕ → ℕ) × K) : ℕ → K :=
  let s := (List.range nv).foldl
    (fun (s : (ℕ → K) × Bool) k => if slot t.1 k = 1 then (Function.update s.1 (base + k) t.2, true) else s) (L, false)
  if s.2 then s.1 else Function.update s.1 (base + nv) t.2

/-- The row of a linear form with all terms: the coefficients in order, linear.c 44-48 and 247-251. -/
def writeFull (base : ℕ) (L : ℕ → K) (cfs : List K) : ℕ → K :=
  (List.range cfs.length).foldl (fun L j => Function.update L (base + j) (cfs.getD j 0)) L

/-- One variable, linear.c 38-72 and 241-269; `polys i` are the terms of the element `bs->lmps[i]`. -/
def rowStep (slot : (ℕ → ℕ) → ℕ → ℕ) (nv : ℕ) (polys : ℕ → List ((ℕ → ℕ) × K)) (linvars : ℕ → ℕ) (s : (ℕ → K) × ℕ) (i : ℕ) :
    (ℕ → K) × ℕ :=
  if linvars i ≠ 0 then
    let ts := polys (linvars i - 1)
    if ts.length = nv + 1 then (writeFull (s.2 * (nv + 1)) s.1 (ts.map Prod.snd), s.2)
    else (ts.foldl (writeTerm slot nv (s.2 * (nv + 1))) s.1, s.2 + 1)
  else s

/-- The array `lineqs` (all zero at the beginning), linear.c 34-73 and 238-270. -/
def rows (slot : (ℕ → ℕ) → ℕ → ℕ) (nv : ℕ) (polys : ℕ → List ((ℕ → ℕ) × K)) (linvars : ℕ → ℕ) : ℕ → K :=
  ((List.range nv).foldl (rowStep slot nv polys linvars) (fun _ => 0, 0)).1

/-- One leading monomial (a row of `bexp_lm`), linear.c 216-231. -/
def linStep (nv : ℕ) (lm : ℕ → ℕ → ℕ) (s : (ℕ → ℕ) × ℕ) (i : ℕ) : (ℕ → ℕ) × ℕ :=
  if (List.range nv).foldl (fun d j => d + lm i j) 0 = 1 then
    ((List.range nv).foldl (fun lv k => if lm i k = 1 then Function.update lv k (i + 1) else lv) s.1, s.2 + 1)
  else s

/-- `linvars` (zero at the beginning) and `nlins`, linear.c 210-233. -/
def linVars (nv lml : ℕ) (lm : ℕ → ℕ → ℕ) : (ℕ → ℕ) × ℕ := (List.range lml).foldl (linStep nv lm) (fun _ => 0, 0)

/-! ### Exponent slots -/

theorem slotCheck_spec (u : Fin n → ℕ) (hu : ∑ i, u i < 65536) (ev0 : ℕ → ℕ) (k : Fin n) :
    slotCheck (setEv n 0 (ext u) ev0) k = u k := (setEv_drl u hu ev0).2 k

theorem slotSet_spec (nev : ℕ) (hle : nev ≤ n) (u : Fin n → ℕ) (hu : ∑ i, u i < 65536) (ev0 : ℕ → ℕ) (k : Fin n) :
    slotSet (evl n nev) (ebl nev) (setEv n nev (ext u) ev0) k = u k := by
  unfold slotSet
  rw [Import.exportEv_setEv n nev hle]
  · rw [List.getD_eq_getElem?_getD, List.getElem?_map, List.getElem?_range k.2]
    exact ext_val u k
  · intro i hi
    rw [show i = (⟨i, hi⟩ : Fin n).val from rfl, ext_val]
    exact lt_of_le_of_lt (Finset.single_le_sum (fun _ _ => Nat.zero_le _) (Finset.mem_univ _)) hu

/-! ### Rows -/

theorem writeTerm_unit {slot : (ℕ → ℕ) → ℕ → ℕ} {nv base : ℕ} {L : ℕ → K} {t : (ℕ → ℕ) × K} {v : ℕ} (hv : v < nv)
    (h : ∀ k, k < nv → (slot t.1 k = 1 ↔ k = v)) : writeTerm slot nv base L t = Function.update L (base + v) t.2 := by
  have key : ∀ m, m ≤ nv → (List.range m).foldl
      (fun (s : (ℕ → K) × Bool) k => if slot t.1 k = 1 then (Function.update s.1 (base + k) t.2, true) else s) (L, false) =
      if v < m then (Function.update L (base + v) t.2, true) else (L, false) := by
    intro m
    induction m with
    | zero => simp
    | succ m ih =>
      intro hm
      rw [List.range_succ, List.foldl_append, ih (by omega), List.foldl_cons, List.foldl_nil]
      by_cases hmv : m = v
      · rw [if_pos ((h m (by omega)).mpr hmv), if_neg (by omega), if_pos (by omega), hmv]
      · rw [if_neg (fun hs => hmv ((h m (by omega)).mp hs))]
        by_cases h1 : v < m
        · rw [if_pos h1, if_pos (by omega)]
        · rw [if_neg h1, if_neg (by omega)]
  unfold writeTerm
  simp only
  rw [key nv (le_refl _), if_pos hv]
  rfl

theorem writeTerm_const {slot : (ℕ → ℕ) → ℕ → ℕ} {nv base : ℕ} {L : ℕ → K} {t : (ℕ → ℕ) × K}
    (h : ∀ k, k < nv → slot t.1 k ≠ 1) : writeTerm slot nv base L t = Function.update L (base + nv) t.2 := by
  have key : ∀ m, m ≤ nv → (List.range m).foldl
      (fun (s : (ℕ → K) × Bool) k => if slot t.1 k = 1 then (Function.update s.1 (base + k) t.2, true) else s) (L, false) =
      (L, false) := by
    intro m
    induction m with
    | zero => simp
    | succ m ih =>
      intro hm
      rw [List.range_succ, List.foldl_append, ih (by omega), List.foldl_cons, List.foldl_nil, if_neg (h m (by omega))]
  unfold writeTerm
  simp only
  rw [key nv (le_refl _)]
  rfl

/-- Monomials of linear forms. -/
def IsLin (u : Fin n → ℕ) : Prop := (∃ k, u = var k) ∨ u = 0

/-- Position of a monomial in a row. -/
noncomputable def pos (u : Fin n → ℕ) : ℕ := by
  classical exact if h : ∃ k, u = var k then (Classical.choose h).val else n

theorem var_inj {k l : Fin n} (h : (var k : Fin n → ℕ) = var l) : k = l := by
  have := congrFun h k
  simp only [var, if_true] at this
  by_contra hne
  rw [if_neg hne] at this
  omega

theorem var_ne_zero (k : Fin n) : (var k : Fin n → ℕ) ≠ 0 := by
  intro h
  have := congrFun h k
  simp [var] at this

theorem pos_var (k : Fin n) : pos (var k) = k.val := by
  have h : ∃ l, (var k : Fin n → ℕ) = var l := ⟨k, rfl⟩
  unfold pos
  rw [dif_pos h, ← var_inj (Classical.choose_spec h)]

theorem pos_zero : pos (0 : Fin n → ℕ) = n := by
  unfold pos
  rw [dif_neg]
  rintro ⟨k, hk⟩
  exact var_ne_zero k hk.symm

theorem pos_inj {u v : Fin n → ℕ} (hu : IsLin u) (hv : IsLin v) (h : pos u = pos v) : u = v := by
  rcases hu with ⟨k, rfl⟩ | rfl <;> rcases hv with ⟨l, rfl⟩ | rfl
  · rw [pos_var, pos_var] at h
    rw [Fin.ext h]
  · rw [pos_var, pos_zero] at h
    omega
  · rw [pos_var, pos_zero] at h
    omega
  · rfl

theorem pos_le {u : Fin n → ℕ} (hu : IsLin u) : pos u ≤ n := by
  rcases hu with ⟨k, rfl⟩ | rfl
  · rw [pos_var]
    omega
  · rw [pos_zero]

theorem writeTerm_lin {slot : (ℕ → ℕ) → ℕ → ℕ} {lay : (Fin n → ℕ) → ℕ → ℕ} {base : ℕ} {L : ℕ → K} {u : Fin n → ℕ} {c : K}
    (hu : IsLin u) (hslot : ∀ k : Fin n, slot (lay u) k = u k) :
    writeTerm slot n base L (lay u, c) = Function.update L (base + pos u) c := by
  rcases hu with ⟨v, rfl⟩ | rfl
  · rw [pos_var]
    refine writeTerm_unit v.2 fun k hk => ?_
    show slot (lay (var v)) k = 1 ↔ _
    rw [show k = (⟨k, hk⟩ : Fin n).val from rfl, hslot]
    simp only [var]
    constructor
    · intro h
      by_contra hne
      rw [if_neg (fun h' => hne (by rw [← h']))] at h
      omega
    · intro h
      rw [if_pos (Fin.ext h)]
  · rw [pos_zero]
    refine writeTerm_const fun k hk => ?_
    show slot (lay 0) k ≠ 1
    rw [show k = (⟨k, hk⟩ : Fin n).val from rfl, hslot]
    simp

theorem coeffAt_append (ts : List ((Fin n → ℕ) × K)) (t : (Fin n → ℕ) × K) (m : Fin n → ℕ) :
    coeffAt (ts ++ [t]) m = coeffAt ts m + if t.1 = m then t.2 else 0 := by
  simp [coeffAt]

theorem coeffAt_eq_zero {ts : List ((Fin n → ℕ) × K)} {m : Fin n → ℕ} (h : ∀ t ∈ ts, t.1 ≠ m) : coeffAt ts m = 0 := by
  unfold coeffAt
  apply List.sum_eq_zero
  intro c hc
  obtain ⟨t, ht, rfl⟩ := List.mem_map.mp hc
  rw [if_neg (h t ht)]

/-- A row written term by term. -/
theorem writeTerms_spec {slot : (ℕ → ℕ) → ℕ → ℕ} {lay : (Fin n → ℕ) → ℕ → ℕ} {base : ℕ} {L : ℕ → K}
    (ts : List ((Fin n → ℕ) × K)) (hlin : ∀ t ∈ ts, IsLin t.1) (hslot : ∀ t ∈ ts, ∀ k : Fin n, slot (lay t.1) k = t.1 k)
    (hnd : (ts.map Prod.fst).Nodup) (hL : ∀ q, q ≤ n → L (base + q) = 0) :
    (∀ u, IsLin u → ((ts.map fun t => (lay t.1, t.2)).foldl (writeTerm slot n base) L) (base + pos u) = coeffAt ts u) ∧
    ∀ i, (i < base ∨ base + n < i) → ((ts.map fun t => (lay t.1, t.2)).foldl (writeTerm slot n base) L) i = L i := by
  induction ts using List.reverseRecOn with
  | nil =>
    constructor
    · intro u hu
      simp only [List.map_nil, List.foldl_nil]
      rw [hL _ (pos_le hu)]
      rfl
    · intro i _
      rfl
  | append_singleton ts t ih =>
    obtain ⟨ih1, ih2⟩ := ih (fun t' h => hlin t' (by simp [h])) (fun t' h => hslot t' (by simp [h]))
      (by rw [List.map_append] at hnd; exact (List.nodup_append.mp hnd).1)
    have ht := hlin t (by simp)
    rw [List.map_append, List.foldl_append, List.map_cons, List.map_nil, List.foldl_cons, List.foldl_nil,
      writeTerm_lin ht (hslot t (by simp))]
    constructor
    · intro u hu
      rw [coeffAt_append]
      by_cases hut : t.1 = u
      · rw [hut, Function.update_self, if_pos rfl, coeffAt_eq_zero, zero_add]
        intro t' ht' he
        rw [List.map_append, List.map_cons, List.map_nil, List.nodup_append] at hnd
        exact hnd.2.2 t'.1 (List.mem_map_of_mem ht') t.1 (by simp) (by rw [he, hut])
      · rw [if_neg hut, add_zero, Function.update_of_ne, ih1 u hu]
        intro he
        exact hut (pos_inj ht hu (by omega))
    · intro i hi
      rw [Function.update_of_ne, ih2 i hi]
      have := pos_le ht
      omega

theorem writeFull_spec (base : ℕ) (L : ℕ → K) (cfs : List K) (q : ℕ) (hq : q < cfs.length) :
    writeFull base L cfs (base + q) = cfs.getD q 0 := by
  have key : ∀ m, (List.range m).foldl (fun L j => Function.update L (base + j) (cfs.getD j 0)) L (base + q) =
      if q < m then cfs.getD q 0 else L (base + q) := by
    intro m
    induction m with
    | zero => simp
    | succ m ih =>
      rw [List.range_succ, List.foldl_append, List.foldl_cons, List.foldl_nil]
      by_cases h : q = m
      · rw [h, Function.update_self, if_pos (by omega)]
      · rw [Function.update_of_ne (by omega), ih]
        by_cases h1 : q < m
        · rw [if_pos h1, if_pos (by omega)]
        · rw [if_neg h1, if_neg (by omega)]
  rw [writeFull, key, if_pos hq]

/-! ### Linear polynomials of a reduced basis -/

theorem sum_var (k : Fin n) : ∑ i, (var k : Fin n → ℕ) i = 1 := by
  simp [var]

theorem sum_eq_one {u : Fin n → ℕ} (h : ∑ i, u i = 1) : ∃ k, u = var k := by
  obtain ⟨k, -, hk⟩ : ∃ k ∈ Finset.univ, u k ≠ 0 := by
    apply Finset.exists_ne_zero_of_sum_ne_zero
    omega
  refine ⟨k, funext fun j => ?_⟩
  have h1 := Finset.add_sum_erase Finset.univ u (Finset.mem_univ k)
  have h2 : ∑ i ∈ Finset.univ.erase k, u i = 0 := by omega
  by_cases hj : j = k
  · subst hj
    simp only [var, if_true]
    omega
  · rw [Finset.sum_eq_zero_iff] at h2
    rw [h2 j (Finset.mem_erase.mpr ⟨hj, Finset.mem_univ j⟩)]
    simp [var, hj]

theorem isLin_of_sum {u : Fin n → ℕ} (h : ∑ i, u i ≤ 1) : IsLin u := by
  rcases Nat.lt_or_ge 0 (∑ i, u i) with h1 | h1
  · exact Or.inl (sum_eq_one (by omega))
  · right
    funext i
    exact (Finset.sum_eq_zero_iff.mp (show ∑ i, u i = 0 by omega)) i (Finset.mem_univ i)

theorem drl_var {k l : Fin n} (h : k < l) : Drl (var l : Fin n → ℕ) (var k) := by
  right
  refine ⟨by rw [sum_var, sum_var], l, Finset.mem_univ _, ?_, fun j _ hj => ?_⟩
  · simp [var, h.ne']
  · simp [var, hj.ne', (h.trans hj).ne']

theorem drl_zero_var (k : Fin n) : Drl (0 : Fin n → ℕ) (var k) := by
  left
  rw [sum_var]
  simp

variable {lml : ℕ} {P : ℕ → List ((Fin n → ℕ) × K)}

theorem _root_.Verif.Spec.Reduced.head (h : Reduced lml P) {i : ℕ} (hi : i < lml) : ∃ s ts, P i = s :: ts ∧ lead (P i) = s.1 := by
  cases hp : P i with
  | nil => exact absurd hp (h.ne i hi)
  | cons s ts => exact ⟨s, ts, rfl, rfl⟩

theorem _root_.Verif.Spec.Reduced.lin (h : Reduced lml P) {i : ℕ} (hi : i < lml) {v : Fin n} (hv : lead (P i) = var v) :
    ∀ t ∈ P i, IsLin t.1 := by
  intro t ht
  obtain ⟨s, ts, hp, hs⟩ := h.head hi
  have hsort := h.sorted i hi
  rw [hp] at ht hsort
  rw [hv] at hs
  rcases List.mem_cons.mp ht with rfl | ht
  · exact Or.inl ⟨v, hs.symm⟩
  · have := (List.pairwise_cons.mp hsort).1 t ht
    rw [← hs] at this
    apply isLin_of_sum
    rcases this with h1 | ⟨h1, -⟩
    · rw [sum_var] at h1
      omega
    · rw [sum_var] at h1
      omega

theorem _root_.Verif.Spec.Reduced.nodup (h : Reduced lml P) {i : ℕ} (hi : i < lml) : ((P i).map Prod.fst).Nodup := by
  rw [List.Nodup, List.pairwise_map]
  refine (h.sorted i hi).imp fun {a b} hab he => ?_
  rw [he] at hab
  exact drl_admissible.irrefl _ hab

theorem _root_.Verif.Spec.Reduced.lead_inj (h : Reduced lml P) {i j : ℕ} (hi : i < lml) (hj : j < lml) (he : lead (P i) = lead (P j)) :
    i = j := by
  by_contra hne
  obtain ⟨s, ts, hp, hs⟩ := h.head hi
  obtain ⟨s', ts', hp', hs'⟩ := h.head hj
  exact h.red i j hi hj hne s (by rw [hp]; simp) s' (by rw [hp']; rfl) (by rw [← hs, ← hs', he])

/-- A linear form with all terms has its terms in the order of the variables. -/
theorem _root_.Verif.Spec.Reduced.full (h : Reduced lml P) {i : ℕ} (hi : i < lml) {v : Fin n} (hv : lead (P i) = var v)
    (hlen : (P i).length = n + 1) : (P i).map Prod.fst = (List.finRange n).map var ++ [0] := by
  have hperm : ((P i).map Prod.fst).Perm ((List.finRange n).map var ++ [0]) := by
    refine (List.subperm_of_subset (h.nodup hi) fun u hu => ?_).perm_of_length_le (by simp [hlen])
    obtain ⟨t, ht, rfl⟩ := List.mem_map.mp hu
    rcases h.lin hi hv t ht with ⟨k, hk⟩ | h0
    · rw [hk]
      exact List.mem_append_left _ (List.mem_map_of_mem (List.mem_finRange k))
    · rw [h0]
      simp
  refine hperm.eq_of_pairwise (le := fun a b => Drl b a) ?_ ?_ ?_
  · intro a b _ _ h1 h2
    exact absurd (drl_admissible.trans _ _ _ h1 h2) (drl_admissible.irrefl _)
  · rw [List.pairwise_map]
    exact h.sorted i hi
  · rw [List.pairwise_append]
    refine ⟨?_, by simp, ?_⟩
    · rw [List.pairwise_map]
      exact (List.pairwise_lt_finRange n).imp fun {a b} hab => drl_var hab
    · intro a ha b hb
      obtain ⟨k, -, rfl⟩ := List.mem_map.mp ha
      rw [List.mem_singleton.mp hb]
      exact drl_zero_var k

theorem coeffAt_eq_of_nodup {ts : List ((Fin n → ℕ) × K)} (hnd : (ts.map Prod.fst).Nodup) {q : ℕ} (hq : q < ts.length) :
    coeffAt ts (ts[q]).1 = (ts[q]).2 := by
  induction ts generalizing q with
  | nil => simp at hq
  | cons t ts ih =>
    rw [List.map_cons, List.nodup_cons] at hnd
    cases q with
    | zero =>
      have h0 : coeffAt ts t.1 = 0 := coeffAt_eq_zero fun t' ht' he => hnd.1 (by rw [← he]; exact List.mem_map_of_mem ht')
      unfold coeffAt at h0 ⊢
      simp only [List.getElem_cons_zero, List.map_cons, List.sum_cons, if_true]
      rw [h0, add_zero]
    | succ q =>
      have hq' : q < ts.length := by simpa using hq
      have := ih hnd.2 hq'
      unfold coeffAt at this ⊢
      simp only [List.getElem_cons_succ, List.map_cons, List.sum_cons]
      rw [this, if_neg, zero_add]
      intro he
      exact hnd.1 (by rw [he]; exact List.mem_map_of_mem (List.getElem_mem _))

theorem full_coeff (h : Reduced lml P) {i : ℕ} (hi : i < lml) {v : Fin n} (hv : lead (P i) = var v)
    (hlen : (P i).length = n + 1) {u : Fin n → ℕ} (hu : IsLin u) : ((P i).map Prod.snd).getD (pos u) 0 = coeffAt (P i) u := by
  have hf := h.full hi hv hlen
  have hpos : pos u < (P i).length := by
    have := pos_le hu
    omega
  have hget : ((P i)[pos u]).1 = u := by
    have h1 : ((P i).map Prod.fst)[pos u]? = some ((P i)[pos u]).1 := by
      rw [List.getElem?_map, List.getElem?_eq_getElem hpos]
      rfl
    have h2 : ((List.finRange n).map (var : Fin n → Fin n → ℕ) ++ [0])[pos u]? = some u := by
      rcases hu with ⟨k, rfl⟩ | rfl
      · rw [pos_var, List.getElem?_append_left (by simp), List.getElem?_map, List.getElem?_eq_getElem (by simp)]
        simp
      · rw [pos_zero, List.getElem?_append_right (by simp)]
        simp
    rw [hf, h2] at h1
    exact (Option.some.inj h1).symm
  have := coeffAt_eq_of_nodup (h.nodup hi) hpos
  rw [hget] at this
  rw [this, List.getD_eq_getElem?_getD, List.getElem?_map, List.getElem?_eq_getElem hpos]
  rfl

/-! ### `linvars` -/

/-- The rows of `bexp_lm`. -/
def lmRow (P : ℕ → List ((Fin n → ℕ) × K)) (i j : ℕ) : ℕ := ext (lead (P i)) j

theorem deg_fold (u : Fin n → ℕ) : (List.range n).foldl (fun d j => d + ext u j) 0 = ∑ i, u i := by
  have : ∀ m, (List.range m).foldl (fun d j => d + ext u j) 0 = ∑ j ∈ Finset.range m, ext u j := by
    intro m
    induction m with
    | zero => rfl
    | succ m ih => rw [List.range_succ, List.foldl_append, ih, List.foldl_cons, List.foldl_nil, Finset.sum_range_succ]
  rw [this, Finset.sum_range]
  exact Finset.sum_congr rfl fun i _ => ext_val u i

theorem linStep_eq (P : ℕ → List ((Fin n → ℕ) × K)) (s : (ℕ → ℕ) × ℕ) (m : ℕ) : linStep n (lmRow P) s m =
    if ∑ i, lead (P m) i = 1 then ((List.range n).foldl
      (fun lv k => if ext (lead (P m)) k = 1 then Function.update lv k (m + 1) else lv) s.1, s.2 + 1) else s := by
  have h : (List.range n).foldl (fun d j => d + lmRow P m j) 0 = ∑ i, lead (P m) i := deg_fold (lead (P m))
  unfold linStep
  simp only [h]
  rfl

theorem linFold_var (lv : ℕ → ℕ) (x : ℕ) (v : Fin n) :
    (List.range n).foldl (fun lv k => if ext (var v : Fin n → ℕ) k = 1 then Function.update lv k x else lv) lv =
      Function.update lv v x := by
  have : ∀ m, m ≤ n → (List.range m).foldl
      (fun lv k => if ext (var v : Fin n → ℕ) k = 1 then Function.update lv k x else lv) lv =
      if v.val < m then Function.update lv v x else lv := by
    intro m
    induction m with
    | zero => simp
    | succ m ih =>
      intro hm
      rw [List.range_succ, List.foldl_append, ih (by omega), List.foldl_cons, List.foldl_nil]
      have he : ext (var v : Fin n → ℕ) m = if m = v.val then 1 else 0 := by
        rw [show m = (⟨m, by omega⟩ : Fin n).val from rfl, ext_val]
        simp only [var, Fin.ext_iff]
      rw [he]
      by_cases hmv : m = v.val
      · rw [if_pos hmv, if_pos rfl, if_neg (by omega), if_pos (by omega), hmv]
      · rw [if_neg hmv, if_neg (by omega)]
        by_cases h1 : v.val < m
        · rw [if_pos h1, if_pos (by omega)]
        · rw [if_neg h1, if_neg (by omega)]
  rw [this n (le_refl _), if_pos v.2]

/-- `linvars k` is the index of the linear form with leading monomial the variable `k`, plus one. -/
theorem linVars_spec (h : Reduced lml P) (k : Fin n) :
    (∀ i, (linVars n lml (lmRow P)).1 k = i + 1 ↔ i < lml ∧ lead (P i) = var k) ∧
    ((linVars n lml (lmRow P)).1 k = 0 ↔ ∀ i, i < lml → lead (P i) ≠ var k) := by
  have key : ∀ m, m ≤ lml → ∀ i, ((List.range m).foldl (linStep n (lmRow P)) (fun _ => 0, 0)).1 k = i + 1 ↔
      i < m ∧ lead (P i) = var k := by
    intro m
    induction m with
    | zero => simp
    | succ m ih =>
      intro hm i
      rw [List.range_succ, List.foldl_append, List.foldl_cons, List.foldl_nil]
      have ih := ih (by omega)
      generalize (List.range m).foldl (linStep n (lmRow P)) (fun _ => 0, 0) = s at ih
      rw [linStep_eq]
      by_cases hd : ∑ i, lead (P m) i = 1
      · rw [if_pos hd]
        obtain ⟨v, hv⟩ := sum_eq_one hd
        simp only
        rw [hv, linFold_var]
        by_cases hvk : v = k
        · subst hvk
          rw [Function.update_self]
          constructor
          · intro he
            have : m = i := by omega
            subst this
            exact ⟨by omega, hv⟩
          · rintro ⟨h1, h2⟩
            rw [h.lead_inj (by omega) (by omega) (h2.trans hv.symm)]
        · rw [Function.update_of_ne (fun he => hvk (Fin.ext he.symm)), ih i]
          constructor
          · rintro ⟨h1, h2⟩
            exact ⟨by omega, h2⟩
          · rintro ⟨h1, h2⟩
            refine ⟨?_, h2⟩
            by_contra hc
            have : i = m := by omega
            subst this
            exact hvk (var_inj (hv.symm.trans h2))
      · rw [if_neg hd, ih i]
        constructor
        · rintro ⟨h1, h2⟩
          exact ⟨by omega, h2⟩
        · rintro ⟨h1, h2⟩
          refine ⟨?_, h2⟩
          by_contra hc
          have : i = m := by omega
          subst this
          exact hd (by rw [h2, sum_var])
  have hkey := key lml (le_refl _)
  refine ⟨hkey, ?_, ?_⟩
  · intro h0 i hi he
    have := (hkey i).mpr ⟨hi, he⟩
    unfold linVars at h0
    omega
  · intro hno
    by_contra hne
    obtain ⟨i, hi⟩ := Nat.exists_eq_succ_of_ne_zero hne
    obtain ⟨h1, h2⟩ := (hkey i).mp hi
    exact hno i h1 h2

/-- The variable `k` is the leading monomial of a basis element. -/
def LinVar (lml : ℕ) (P : ℕ → List ((Fin n → ℕ) × K)) (k : Fin n) : Prop := ∃ i, i < lml ∧ lead (P i) = var k

open Classical in
/-- Number of linear variables below `m`. -/
noncomputable def rank (lml : ℕ) (P : ℕ → List ((Fin n → ℕ) × K)) (m : ℕ) : ℕ :=
  (Finset.univ.filter fun k : Fin n => k.val < m ∧ LinVar lml P k).card

theorem rank_zero : rank lml P 0 = 0 := by simp [rank]

theorem rank_succ (m : Fin n) : (LinVar lml P m → rank lml P (m + 1) = rank lml P m + 1) ∧
    (¬ LinVar lml P m → rank lml P (m + 1) = rank lml P m) := by
  classical
  unfold rank
  constructor
  · intro hm
    rw [show (Finset.univ.filter fun k : Fin n => k.val < m + 1 ∧ LinVar lml P k) =
        insert m (Finset.univ.filter fun k : Fin n => k.val < m ∧ LinVar lml P k) from ?_, Finset.card_insert_of_notMem]
    · simp
    · ext k
      simp only [Finset.mem_filter, Finset.mem_univ, true_and, Finset.mem_insert, Fin.ext_iff]
      constructor
      · rintro ⟨h1, h2⟩
        by_cases hk : k.val = m.val
        · exact Or.inl hk
        · exact Or.inr ⟨by omega, h2⟩
      · rintro (h1 | ⟨h1, h2⟩)
        · exact ⟨by omega, by rw [Fin.ext h1]; exact hm⟩
        · exact ⟨by omega, h2⟩
  · intro hm
    congr 1
    ext k
    simp only [Finset.mem_filter, Finset.mem_univ, true_and]
    constructor
    · rintro ⟨h1, h2⟩
      refine ⟨?_, h2⟩
      by_contra hc
      have : k = m := Fin.ext (by omega)
      subst this
      exact hm h2
    · rintro ⟨h1, h2⟩
      exact ⟨by omega, h2⟩

theorem rank_mono {a b : ℕ} (h : a ≤ b) : rank lml P a ≤ rank lml P b := by
  classical
  unfold rank
  apply Finset.card_le_card
  intro k
  simp only [Finset.mem_filter, Finset.mem_univ, true_and]
  rintro ⟨h1, h2⟩
  exact ⟨by omega, h2⟩

/-- `nlins` is the number of linear variables. -/
theorem nlins_spec (h : Reduced lml P) : (linVars n lml (lmRow P)).2 = rank lml P n := by
  classical
  have key : ∀ m, m ≤ lml → ((List.range m).foldl (linStep n (lmRow P)) (fun _ => 0, 0)).2 =
      (Finset.univ.filter fun k : Fin n => LinVar m P k).card := by
    intro m
    induction m with
    | zero => simp [LinVar]
    | succ m ih =>
      intro hm
      rw [List.range_succ, List.foldl_append, List.foldl_cons, List.foldl_nil]
      have ih := ih (by omega)
      generalize (List.range m).foldl (linStep n (lmRow P)) (fun _ => 0, 0) = s at ih
      rw [linStep_eq]
      by_cases hd : ∑ i, lead (P m) i = 1
      · rw [if_pos hd]
        obtain ⟨v, hv⟩ := sum_eq_one hd
        simp only
        rw [show (Finset.univ.filter fun k : Fin n => LinVar (m + 1) P k) =
            insert v (Finset.univ.filter fun k : Fin n => LinVar m P k) from ?_, Finset.card_insert_of_notMem, ih]
        · simp only [Finset.mem_filter, Finset.mem_univ, true_and]
          rintro ⟨i, hi, he⟩
          have := h.lead_inj (i := i) (j := m) (by omega) (by omega) (he.trans hv.symm)
          omega
        · ext k
          simp only [Finset.mem_filter, Finset.mem_univ, true_and, Finset.mem_insert]
          constructor
          · rintro ⟨i, hi, he⟩
            by_cases him : i = m
            · subst him
              exact Or.inl (var_inj (he.symm.trans hv))
            · exact Or.inr ⟨i, by omega, he⟩
          · rintro (rfl | ⟨i, hi, he⟩)
            · exact ⟨m, by omega, hv⟩
            · exact ⟨i, by omega, he⟩
      · rw [if_neg hd, ih]
        congr 1
        ext k
        simp only [Finset.mem_filter, Finset.mem_univ, true_and]
        constructor
        · rintro ⟨i, hi, he⟩
          exact ⟨i, by omega, he⟩
        · rintro ⟨i, hi, he⟩
          refine ⟨i, ?_, he⟩
          by_contra hc
          have : i = m := by omega
          subst this
          exact hd (by rw [he, sum_var])
  unfold linVars
  rw [key lml (le_refl _), rank]
  congr 1
  ext k
  simp

/-! ### `lineqs` -/

/-- Row `rank v` of `lineqs` holds the coefficients of the linear form with leading variable `v`. -/
theorem rows_spec (h : Reduced lml P) {slot : (ℕ → ℕ) → ℕ → ℕ} {lay : (Fin n → ℕ) → ℕ → ℕ}
    (hslot : ∀ u : Fin n → ℕ, ∑ i, u i ≤ 1 → ∀ k : Fin n, slot (lay u) k = u k) {v : Fin n} {i : ℕ} (hi : i < lml)
    (hv : lead (P i) = var v) (u : Fin n → ℕ) (hu : IsLin u) :
    rows slot n (fun j => (P j).map fun t => (lay t.1, t.2)) (linVars n lml (lmRow P)).1 (rank lml P v * (n + 1) + pos u) =
      coeffAt (P i) u := by
  have hslot' : ∀ u : Fin n → ℕ, IsLin u → ∀ k : Fin n, slot (lay u) k = u k := by
    intro u hu
    refine hslot u ?_
    rcases hu with ⟨k, rfl⟩ | rfl
    · rw [sum_var]
    · simp
  set polys : ℕ → List ((ℕ → ℕ) × K) := fun j => (P j).map fun t => (lay t.1, t.2) with hpolys
  set lv := (linVars n lml (lmRow P)).1 with hlv
  by_cases hfull : ∃ j w, j < lml ∧ lead (P j) = var w ∧ (P j).length = n + 1
  · obtain ⟨j, w, hj, hw, hlen⟩ := hfull
    -- only one linear form
    have honly : ∀ k, LinVar lml P k → k = w := by
      rintro k ⟨i', hi', hk⟩
      by_cases hij : i' = j
      · subst hij
        exact var_inj (hk.symm.trans hw)
      · exfalso
        obtain ⟨s, ts, hp, hs⟩ := h.head hi'
        have hmem : (var k : Fin n → ℕ) ∈ (P j).map Prod.fst := by
          rw [h.full hj hw hlen]
          exact List.mem_append_left _ (List.mem_map_of_mem (List.mem_finRange k))
        obtain ⟨t, ht, he⟩ := List.mem_map.mp hmem
        exact h.red j i' hj hi' (Ne.symm hij) t ht s (by rw [hp]; rfl) (by rw [← hs, hk, he])
    have hvw : v = w := honly v ⟨i, hi, hv⟩
    subst hvw
    have hij : i = j := h.lead_inj hi hj (hv.trans hw.symm)
    subst hij
    have hrank : rank lml P v = 0 := by
      classical
      unfold rank
      rw [Finset.card_eq_zero, Finset.filter_eq_empty_iff]
      rintro k - ⟨h1, h2⟩
      rw [honly k h2] at h1
      omega
    have key : ∀ m, m ≤ n → (List.range m).foldl (rowStep slot n polys lv) (fun _ => 0, 0) =
        if v.val < m then (writeFull 0 (fun _ => 0) ((P i).map Prod.snd), 0) else (fun _ => 0, 0) := by
      intro m
      induction m with
      | zero => simp
      | succ m ih =>
        intro hm
        rw [List.range_succ, List.foldl_append, ih (by omega), List.foldl_cons, List.foldl_nil]
        by_cases hmv : m = v.val
        · rw [if_neg (by omega), if_pos (by omega), hmv]
          have hl : lv v = i + 1 := ((linVars_spec h v).1 i).mpr ⟨hi, hv⟩
          unfold rowStep
          simp only
          rw [hl, if_pos (by omega), Nat.add_sub_cancel, hpolys]
          simp only
          rw [List.length_map, if_pos hlen, List.map_map, Nat.zero_mul]
          rfl
        · have hl : lv m = 0 := by
            rw [show m = (⟨m, by omega⟩ : Fin n).val from rfl]
            refine ((linVars_spec h _).2).mpr fun i' hi' he => hmv ?_
            have := honly _ ⟨i', hi', he⟩
            rw [← this]
          unfold rowStep
          rw [if_neg (fun hc => hc hl)]
          by_cases h1 : v.val < m
          · rw [if_pos h1, if_pos (by omega)]
          · rw [if_neg h1, if_neg (by omega)]
    unfold rows
    rw [key n (le_refl _), if_pos v.2, hrank, Nat.zero_mul]
    have hp := pos_le hu
    simp only
    rw [writeFull_spec 0 _ _ (pos u) (by simp only [List.length_map, hlen]; omega)]
    exact full_coeff h hi hv hlen hu
  · have hnf : ∀ j w, j < lml → lead (P j) = var w → (P j).length ≠ n + 1 := by
      intro j w h1 h2 h3
      exact hfull ⟨j, w, h1, h2, h3⟩
    have key : ∀ m, m ≤ n → ∃ L, (List.range m).foldl (rowStep slot n polys lv) (fun _ => 0, 0) = (L, rank lml P m) ∧
        (∀ q, rank lml P m * (n + 1) ≤ q → L q = 0) ∧
        ∀ (w : Fin n) (j : ℕ), w.val < m → j < lml → lead (P j) = var w → ∀ u, IsLin u →
          L (rank lml P w * (n + 1) + pos u) = coeffAt (P j) u := by
      intro m
      induction m with
      | zero => exact fun _ => ⟨_, by simp [rank_zero], fun _ _ => rfl, fun w j h0 => absurd h0 (by omega)⟩
      | succ m ih =>
        intro hm
        obtain ⟨L, hL, hz, hrow⟩ := ih (by omega)
        rw [List.range_succ, List.foldl_append, hL, List.foldl_cons, List.foldl_nil]
        have hr := rank_succ (lml := lml) (P := P) (⟨m, by omega⟩ : Fin n)
        simp only at hr
        by_cases hlin : LinVar lml P (⟨m, by omega⟩ : Fin n)
        · obtain ⟨j, hj, hjm⟩ := hlin
          have hl : lv m = j + 1 := ((linVars_spec h ⟨m, by omega⟩).1 j).mpr ⟨hj, hjm⟩
          unfold rowStep
          rw [hl, if_pos (by omega), Nat.add_sub_cancel, hpolys]
          simp only
          rw [List.length_map, if_neg (hnf j _ hj hjm)]
          obtain ⟨hw1, hw2⟩ := writeTerms_spec (slot := slot) (lay := lay) (base := rank lml P m * (n + 1)) (L := L) (P j)
            (h.lin hj hjm) (fun t ht => hslot' _ (h.lin hj hjm t ht)) (h.nodup hj) (fun q _ => hz _ (by omega))
          refine ⟨_, by rw [hr.1 ⟨j, hj, hjm⟩], ?_, ?_⟩
          · intro q hq
            rw [hr.1 ⟨j, hj, hjm⟩, Nat.add_mul, Nat.one_mul] at hq
            rw [hw2 q (Or.inr (by omega)), hz q (by omega)]
          · intro w j' hw hj' hjw u hu
            by_cases hwm : w.val = m
            · subst hwm
              have : j' = j := h.lead_inj hj' hj (hjw.trans hjm.symm)
              subst this
              exact hw1 u hu
            · rw [hw2 _ (Or.inl ?_), hrow w j' (by omega) hj' hjw u hu]
              have h1 := (rank_succ (lml := lml) (P := P) w).1 ⟨j', hj', hjw⟩
              have h2 := rank_mono (lml := lml) (P := P) (show w.val + 1 ≤ m by omega)
              have h3 : (rank lml P w + 1) * (n + 1) ≤ rank lml P m * (n + 1) := Nat.mul_le_mul_right _ (by omega)
              have h4 := pos_le hu
              rw [Nat.add_mul, Nat.one_mul] at h3
              omega
        · have hl : lv m = 0 := by
            rw [show m = (⟨m, by omega⟩ : Fin n).val from rfl]
            exact ((linVars_spec h _).2).mpr fun i' hi' he => hlin ⟨i', hi', he⟩
          unfold rowStep
          rw [if_neg (fun hc => hc hl)]
          refine ⟨L, by rw [hr.2 hlin], fun q hq => hz q (by rw [hr.2 hlin] at hq; omega), ?_⟩
          intro w j hw hj hjw u hu
          refine hrow w j ?_ hj hjw u hu
          by_contra hc
          have : w.val = m := by omega
          subst this
          exact hlin ⟨j, hj, hjw⟩
    obtain ⟨L, hL, -, hrow⟩ := key n (le_refl _)
    unfold rows
    rw [hL]
    exact hrow v i v.2 hi hv u hu

end Verif.LinForms
