import Verif.Julia
import Verif.Spec.JuliaArrays
import Verif.Props.SolveReal

/-!
C84: the library function `msolve_julia`, from the arrays of the caller to the arrays that are returned.
-/
namespace Verif.Props
namespace Julia

open Verif.F4 Verif.Spec Verif.VarOrder Verif.Output Verif.SolveQ Verif.RealPoints Verif.Julia Verif.Spec.Julia Verif.UPoly Verif.Isolate
open Verif.ParamLift (PSt)
open Verif.Parse (qqPoly)
open Verif.Props.SolveQ Verif.Props.SolveReal
open Verif.Spec.Text (SystemQ idealQ polyQ Variant GoodPrime)
open Verif.Spec.Solutions
open Verif.Props.Solve (Rel ofFn_vec)
open MvPolynomial

/-! ### The arrays of the caller -/

theorem flatMap_flatten {α β : Type} (f : α → List β) : ∀ ls : List (List α), ls.flatten.flatMap f = ls.flatMap fun l => l.flatMap f
  | [] => rfl
  | l :: ls => by rw [List.flatten_cons, List.flatMap_append, List.flatMap_cons, flatMap_flatten f ls]

theorem gens_arrays {names : List (List Char)} {tss : List (List Text.Mon)} {lens : List ℕ} {exps cfs : List ℤ} (h : Holds names.length tss lens exps cfs) :
    gensOfArrays names lens exps cfs = gensOfQ names (tss.map (qqPoly names.length)) := by
  obtain ⟨rfl, rfl, rfl⟩ := h
  unfold gensOfArrays gensOfQ
  congr 1
  · simp [qqPoly, Function.comp_def]
  · simp only [qqPoly, List.flatMap_map, ← ofFn_vec, flatMap_flatten]
  · simp only [qqPoly, List.flatMap_map, flatMap_flatten]

/-! ### Reading the arrays that are returned -/

theorem cut_flatten {α : Type} : ∀ ls : List (List α), cut (ls.map List.length) ls.flatten = some ls
  | [] => rfl
  | l :: ls => by
    rw [List.map_cons, List.flatten_cons, cut, if_pos (by simp)]
    rw [List.drop_left, cut_flatten ls, List.take_left]
    rfl

theorem readParam_of (e d : List ℤ) (cs : List (List ℤ × ℤ)) :
    readParam (e.length :: d.length :: cs.map fun c => c.1.length + 1) (e ++ d ++ cs.flatMap fun c => c.1 ++ [c.2]) = some (e, d, cs) := by
  have h := cut_flatten (e :: d :: cs.map fun c => c.1 ++ [c.2])
  have h1 : (e :: d :: cs.map fun c => c.1 ++ [c.2]).map List.length = e.length :: d.length :: cs.map fun c => c.1.length + 1 := by
    simp [Function.comp_def]
  have h2 : (e :: d :: cs.map fun c => c.1 ++ [c.2]).flatten = e ++ d ++ cs.flatMap fun c => c.1 ++ [c.2] := by
    rw [List.flatten_cons, List.flatten_cons, List.append_assoc, List.flatMap_def]
  rw [h1, h2] at h
  unfold readParam
  rw [h]
  have h3 : ((cs.map fun c => c.1 ++ [c.2]).mapM fun c : List ℤ => c.getLast?.map fun f => (c.dropLast, f)) = some cs := by
    refine VecRecon.forall₂_mapM _ _ _ ?_
    rw [List.forall₂_map_left_iff]
    refine List.forall₂_same.mpr fun c _ => ?_
    simp
  simp only [h3]
  rfl

theorem intervals_of : ∀ l : List (ℚ × ℚ), intervals (l.flatMap fun q => [q.1, q.2]) = some l
  | [] => rfl
  | q :: l => by
    show (intervals (l.flatMap fun q => [q.1, q.2])).map _ = _
    rw [intervals_of l]
    rfl

theorem zip_bounds : ∀ bs : List Box, List.zipWith (fun (a : ℤ) (k : ℕ) => (a : ℚ) / 2 ^ k) (bs.flatMap fun b => [b.vdo, b.vup]) (bs.flatMap fun b => [b.kdo, b.kup]) =
    (bs.map fun b => ((b.vdo : ℚ) / 2 ^ b.kdo, (b.vup : ℚ) / 2 ^ b.kup)).flatMap fun q => [q.1, q.2]
  | [] => rfl
  | b :: bs => by
    simp only [List.flatMap_cons, List.map_cons, List.cons_append, List.nil_append, List.zipWith_cons_cons, zip_bounds bs]

theorem numOf_flatten (pts : List (List Box)) : numOf pts = pts.flatten.flatMap fun b => [b.vdo, b.vup] := by
  unfold numOf
  rw [flatMap_flatten]

theorem denOf_flatten (pts : List (List Box)) : denOf pts = pts.flatten.flatMap fun b => [b.kdo, b.kup] := by
  unfold denOf
  rw [flatMap_flatten]

theorem pairs_length {α β : Type} (f g : α → β) : ∀ l : List α, (l.flatMap fun a => [f a, g a]).length = 2 * l.length
  | [] => rfl
  | a :: l => by
    rw [List.flatMap_cons, List.length_append, pairs_length f g l]
    simp only [List.length_cons, List.length_nil]
    omega

theorem numOf_length (pts : List (List Box)) : (numOf pts).length = 2 * pts.flatten.length := by
  rw [numOf_flatten, pairs_length]

theorem flatten_const {α : Type} {n : ℕ} {ls : List (List α)} (h : ∀ l ∈ ls, l.length = n) : ls.map List.length = List.replicate ls.length n :=
  List.eq_replicate_iff.mpr ⟨by simp, by simpa using h⟩

theorem readPoints_of {n : ℕ} {pts : List (List Box)} (h : ∀ bs ∈ pts, bs.length = n) : readPoints pts.length n (numOf pts) (denOf pts) = some (boundsOf pts) := by
  unfold readPoints
  have hl : (numOf pts).length = (denOf pts).length := by
    rw [numOf_length, denOf_flatten, pairs_length]
  rw [if_pos hl, numOf_flatten, denOf_flatten, zip_bounds, intervals_of]
  have e : (pts.flatten.map fun b : Box => ((b.vdo : ℚ) / 2 ^ b.kdo, (b.vup : ℚ) / 2 ^ b.kup)) = (boundsOf pts).flatten := by
    unfold boundsOf
    rw [List.map_flatten]
  rw [e]
  have h2 : List.replicate pts.length n = (boundsOf pts).map List.length := by
    rw [flatten_const (n := n) (ls := boundsOf pts)]
    · simp [boundsOf]
    · intro l hl
      obtain ⟨bs, hbs, rfl⟩ := List.mem_map.mp hl
      rw [List.length_map, h bs hbs]
  rw [h2]
  exact cut_flatten _

/-! ### The number of coordinates -/

theorem mapM_length {α β : Type} {f : α → Option β} {l : List α} {r : List β} (h : l.mapM f = some r) : r.length = l.length :=
  (VecRecon.mapM_forall₂ f l r h).length_eq.symm

theorem openCoords_length {p : Param} {numer : ℤ} {k corr prec : ℕ} {dd du : ℤ} : ∀ {l : List Coord} {old : ℤ × ℤ} {bs : List Box},
    openCoords p numer k corr prec dd du old l = some bs → bs.length = l.length
  | [], _, bs, h => by
    obtain rfl := Option.some.inj h
    rfl
  | q :: l, old, bs, h => by
    rw [openCoords] at h
    split at h
    · exact absurd h (by simp)
    · obtain ⟨bs', h1, rfl⟩ := Option.map_eq_some_iff.mp h
      rw [List.length_cons, List.length_cons, openCoords_length h1]

theorem finish_length {p : Param} {prec : ℕ} {s : Ival × ℕ × ℤ × ℤ} {bs : List Box} (h : finishPoint p prec s = some bs) : bs.length = p.coords.length + 1 := by
  unfold finishPoint at h
  split_ifs at h
  · unfold exactPoint at h
    obtain ⟨l, h1, rfl⟩ := Option.map_eq_some_iff.mp h
    rw [List.length_append, mapM_length h1]
    rfl
  · obtain ⟨l, h1, rfl⟩ := Option.map_eq_some_iff.mp h
    rw [List.length_append, openCoords_length h1]
    rfl

theorem extract_length {shl : ℕ → ℤ} {fuel : ℕ} {p : Param} {prec : ℕ} : ∀ {l : List Ival} {raw : List (List Box)}, extractRoots shl fuel p prec l = .done raw →
    ∀ bs ∈ raw, bs.length = p.coords.length + 1
  | [], raw, h => by
    injection h with h
    subst h
    simp
  | rt :: l, raw, h => by
    rw [extractRoots] at h
    split at h
    · exact absurd h (by simp)
    · exact absurd h (by simp)
    · rename_i b hb
      split at h
      · exact absurd h (by simp)
      · exact absurd h (by simp)
      · rename_i bs' hbs
        injection h with h
        subst h
        intro bs hm
        rcases List.mem_cons.mp hm with rfl | hm
        · rw [List.length_map]
          unfold lazySingle at hb
          split at hb
          · exact absurd hb (by simp)
          · exact absurd hb (by simp)
          · split at hb
            · exact absurd hb (by simp)
            · rename_i hf
              injection hb with hb
              subst hb
              exact finish_length hf
        · exact extract_length hbs bs hm

theorem isolate_length {shl : ℕ → ℤ} {fuel : ℕ} {p : Param} {prec : ℕ} {raw : List (List Box)} (h : isolateParam shl fuel p prec = .done raw) :
    ∀ bs ∈ raw, bs.length = p.coords.length + 1 := by
  unfold isolateParam at h
  split at h
  · exact absurd h (by simp)
  · exact absurd h (by simp)
  · exact absurd h (by simp)
  · exact extract_length h

theorem points_length {names : List (List Char)} {g : Gens} {τ : Fin names.length → Fin g.nvars} (hst : StateOk names g τ) {prec gp nsols : ℕ} {m : PSt}
    {pts : List (List Box)} (h : RealPts prec gp g nsols m pts) : ∀ bs ∈ pts, bs.length = names.length := by
  unfold RealPts at h
  split_ifs at h
  · subst h
    simp
  · obtain ⟨shl, K, raw, hK, rfl⟩ := h
    intro bs hbs
    obtain ⟨b, hb, rfl⟩ := List.mem_map.mp hbs
    refine (shown_spec hst gp ?_).1
    rw [isolate_length (hK K le_rfl) b hb]
    have := hst.pos
    simp [paramOf]
    omega

/-! ### The linear form -/

theorem range'_mapM {α : Type} {F : ℕ → Option α} : ∀ {l off : ℕ} {f : List α}, (List.range' off l).mapM F = some f → ∀ j, j < l → F (off + j) = f[j]? := by
  intro l off f h j hj
  have h1 := VecRecon.mapM_forall₂ _ _ _ h
  have h2 := h1.length_eq
  rw [List.length_range'] at h2
  have h3 := List.forall₂_iff_get.mp h1
  have h4 := h3.2 j (by simpa using hj) (by omega)
  rw [List.getElem?_eq_getElem (by omega)]
  simpa using h4

theorem readGensQ_last {nv : ℕ} {e m : List ℤ} : ∀ {ls : List ℕ} {off : ℕ} {init : List (List ((ℤ × ℤ) × List ℤ))} {f : List ((ℤ × ℤ) × List ℤ)},
    readGensQ nv e m off ls = some (init ++ [f]) → ∀ j (hj : j < f.length), m[2 * (off + ls.dropLast.sum) + 2 * j]? = some f[j].1.1
  | [], off, init, f, h => by
    rw [readGensQ] at h
    have := congrArg List.length (Option.some.inj h)
    simp at this
  | l :: ls, off, init, f, h => by
    rw [readGensQ, Option.bind_eq_some_iff] at h
    obtain ⟨f0, h1, h2⟩ := h
    obtain ⟨r, h3, h4⟩ := Option.map_eq_some_iff.mp h2
    cases ls with
    | nil =>
      rw [readGensQ] at h3
      obtain rfl := Option.some.inj h3
      have h5 : f0 = f := by
        cases init with
        | nil => simpa using h4
        | cons a init => simp at h4
      subst h5
      intro j hj
      have hl := mapM_length h1
      rw [List.length_range'] at hl
      have h6 := range'_mapM h1 j (by omega)
      rw [List.getElem?_eq_getElem hj] at h6
      unfold readTermQ at h6
      obtain ⟨a, h7, h8⟩ := Option.bind_eq_some_iff.mp h6
      obtain ⟨b, h9, h10⟩ := Option.bind_eq_some_iff.mp h8
      obtain ⟨x, h11, h12⟩ := Option.map_eq_some_iff.mp h10
      rw [← h12]
      simp only [List.dropLast_singleton, List.sum_nil, Nat.add_zero]
      rw [← h7]
      congr 1
      ring
    | cons l' ls =>
      cases init with
      | nil =>
        simp only [List.nil_append, List.cons.injEq] at h4
        obtain ⟨rfl, rfl⟩ := h4
        rw [readGensQ, Option.bind_eq_some_iff] at h3
        obtain ⟨_, -, h3⟩ := h3
        obtain ⟨_, -, h3⟩ := Option.map_eq_some_iff.mp h3
        simp at h3
      | cons a init =>
        simp only [List.cons_append, List.cons.injEq] at h4
        obtain ⟨rfl, rfl⟩ := h4
        intro j hj
        have := readGensQ_last h3 j hj
        rw [← this]
        congr 2
        simp only [List.dropLast_cons_cons, List.sum_cons]
        ring

theorem variant_form {n n' : ℕ} {tss tss' : List (List Text.Mon)} {τ : Fin n → Fin n'} (hv : Variant n tss n' τ tss') (hn : n' = n + 1) :
    ∃ (v : Fin n' → ℤ) (tss0 : List (List Text.Mon)) (l : List Text.Mon), tss' = tss0 ++ [l] ∧
      (l.map fun t => (t.numer, t.denom, t.vec n')) = List.ofFn fun j : Fin n' => (v j, 1, Pi.single j 1) := by
  cases hv with
  | same => omega
  | swapped => omega
  | form v _ _ h => exact ⟨v, _, _, rfl, h⟩

theorem formOf_spec {names : List (List Char)} {g : Gens} {τ : Fin names.length → Fin g.nvars} (hst : StateOk names g τ) {tss tss' : List (List Text.Mon)}
    (hv : Variant names.length tss g.nvars τ tss') (hr : readGensQ g.nvars g.exps g.mpz 0 g.lens = some (tss'.map (qqPoly g.nvars))) :
    (g.nvars = names.length ∧ formOf g = some none) ∨
    (g.nvars = names.length + 1 ∧ ∃ v : Fin g.nvars → ℤ, formOf g = some (some (List.ofFn v)) ∧ ∑ j, C (v j : ℚ) * X j ∈ idealQ g.nvars tss') := by
  unfold formOf
  by_cases h : 0 < g.lfbc
  · right
    obtain ⟨hn, -⟩ := hst.form h
    refine ⟨hn, ?_⟩
    obtain ⟨v, tss0, l, hl, hv⟩ := variant_form hv hn
    have hlen : l.length = g.nvars := by
      have := congrArg List.length hv
      simpa using this
    have hj : ∀ j (hj : j < g.nvars), (l[j]'(by omega)).numer = v ⟨j, hj⟩ ∧ (l[j]'(by omega)).denom = 1 ∧ (l[j]'(by omega)).vec g.nvars = Pi.single ⟨j, hj⟩ 1 := by
      intro j hj
      have := congrArg (fun r => r[j]?) hv
      simp only [List.getElem?_map, List.getElem?_ofFn, dif_pos hj, List.getElem?_eq_getElem (show j < l.length by omega), Option.map_some, Option.some.injEq, Prod.mk.injEq] at this
      exact this
    refine ⟨v, ?_, ?_⟩
    · rw [if_pos h]
      rw [hl, List.map_append, List.map_singleton] at hr
      have h1 := readGensQ_last hr
      have h2 : ((List.range g.nvars).mapM fun i => g.mpz[2 * g.lens.dropLast.sum + 2 * i]?) = some (List.ofFn v) := by
        refine VecRecon.forall₂_mapM _ _ _ (List.forall₂_iff_get.mpr ⟨by simp, fun i h3 h4 => ?_⟩)
        have hi : i < g.nvars := by simpa using h3
        have h5 := h1 i (by simp [qqPoly]; omega)
        rw [Nat.zero_add] at h5
        simp only [List.get_eq_getElem, List.getElem_range, List.getElem_ofFn]
        rw [h5]
        simp only [qqPoly, List.getElem_map, (hj i hi).1]
      rw [h2]
      rfl
    · have hp : polyQ g.nvars l = ∑ j, C (v j : ℚ) * X j := by
        unfold polyQ
        have e : l.map (Text.Mon.polyQ g.nvars) =
            (l.map fun t => (t.numer, t.denom, t.vec g.nvars)).map fun r => monomial (Finsupp.equivFunOnFinite.symm r.2.2) ((r.1 : ℚ) / r.2.1) := by
          rw [List.map_map]
          rfl
        rw [e, hv, List.map_ofFn, List.sum_ofFn]
        refine Finset.sum_congr rfl fun j _ => ?_
        simp only [Function.comp_apply, Int.cast_one, div_one]
        rw [C_mul_X_eq_monomial]
        congr 1
        ext i
        simp
      rw [← hp]
      exact Ideal.subset_span ⟨l, by rw [hl]; simp, rfl⟩
  · left
    rw [if_neg h]
    exact ⟨hst.plain (by omega), rfl⟩

/-! ### The export -/

theorem takeWhile_all {p : Char → Bool} : ∀ {l : List Char}, (∀ c ∈ l, p c = true) → l.takeWhile p = l
  | [], _ => rfl
  | c :: l, h => by rw [List.takeWhile_cons, if_pos (h c List.mem_cons_self), takeWhile_all fun c hc => h c (List.mem_cons_of_mem _ hc)]

theorem buffers_names {names : List (List Char)} (hnul : ∀ nm ∈ names, '\x00' ∉ nm) {g : Gens} {τ : Fin names.length → Fin g.nvars} (hst : StateOk names g τ) :
    (buffers g).map nameOf = g.vnames.map String.toList := by
  have hs : ∀ s ∈ g.vnames, '\x00' ∉ s.toList := by
    intro s hs
    rcases hst.mem s hs with rfl | ⟨nm, hnm, rfl⟩
    · decide
    · rw [String.toList_ofList]
      exact hnul nm hnm
  have hn : ∀ l : List Char, '\x00' ∉ l → nameOf l = l ∧ nameOf (l ++ ['\x00']) = l := by
    intro l hl
    have h1 : ∀ c ∈ l, (c != '\x00') = true := fun c hc => by
      rw [bne_iff_ne]
      rintro rfl
      exact hl hc
    refine ⟨takeWhile_all h1, ?_⟩
    unfold nameOf
    rw [List.takeWhile_append_of_pos h1]
    simp
  unfold buffers
  refine List.ext_getElem (by simp) fun i h1 h2 => ?_
  simp only [List.getElem_map, List.getElem_mapIdx]
  have := hs (g.vnames[i]'(by simpa using h2)) (List.getElem_mem _)
  split_ifs
  · exact (hn _ this).2
  · exact (hn _ this).1

theorem buffers_open {names : List (List Char)} (hnul : ∀ nm ∈ names, '\x00' ∉ nm) {g : Gens} {τ : Fin names.length → Fin g.nvars} (hst : StateOk names g τ)
    (i : Fin names.length) : (buffers g)[(τ i).val]? = some names[i] ∧ cString names[i] = none := by
  constructor
  · unfold buffers
    rw [List.getElem?_mapIdx, hst.name i, Option.map_some, if_neg, String.toList_ofList]
    rintro ⟨h1, h2⟩
    obtain ⟨h3, h4⟩ := hst.form h1
    have := h4 i
    have := i.2
    omega
  · unfold cString
    exact if_neg (hnul _ (List.getElem_mem _))

theorem buffers_added {names : List (List Char)} (hA : ['A'] ∉ names) {g : Gens} {τ : Fin names.length → Fin g.nvars} (hst : StateOk names g τ)
    (hlen : (buffers g).length = names.length + 1) : ∃ b, (buffers g)[names.length]? = some b ∧ cString b = some ['A'] := by
  have hl : g.vnames.length = names.length + 1 := by simpa [buffers] using hlen
  have hn : g.nvars = names.length + 1 := by rw [← hst.len, hl]
  have hf : 0 < g.lfbc := by
    by_contra hc
    have := hst.plain (by omega)
    omega
  obtain ⟨-, hτ⟩ := hst.form hf
  have hlt : names.length < g.vnames.length := by omega
  have hlast : g.vnames[names.length] = "A" := by
    rcases hst.mem _ (List.getElem_mem hlt) with h | ⟨nm, hnm, h⟩
    · exact h
    · obtain ⟨i, hi, rfl⟩ := List.getElem_of_mem hnm
      have h1 := hst.name ⟨i, hi⟩
      rw [hτ, List.getElem?_eq_getElem (by simp only; omega)] at h1
      have h2 := Option.some.inj h1
      have h3 := (List.Nodup.getElem_inj_iff (hst.nodup hA)).1 (h.trans h2.symm)
      simp only at h3
      omega
  refine ⟨['A', '\x00'], ?_, by decide⟩
  unfold buffers
  rw [List.getElem?_mapIdx, List.getElem?_eq_getElem hlt, hlast, Option.map_some, if_pos ⟨hf, hn.symm⟩]
  rfl

theorem export_none (g : Gens) {P : MpzParam} (hP : 0 < P.dim ∨ (P.dim = 0 ∧ P.dquot = 0)) {lf : Option (List ℤ)} (hf : formOf g = some lf) (pts : List (List Box)) :
    exportJ g P pts = some { ld := P.nvars + 1, nvars := g.nvars, dim := P.dim, dquot := P.dquot, names := buffers g, nsols := pts.length } := by
  unfold exportJ
  rw [hf, Option.bind_some]
  simp only [if_pos hP]

theorem export_undefined (g : Gens) {P : MpzParam} (hP : ¬ (0 < P.dim ∨ (P.dim = 0 ∧ P.dquot = 0))) (h : P.nvars = 0 ∨ coordsOf P = none) (pts : List (List Box)) :
    exportJ g P pts = none := by
  unfold exportJ
  rcases formOf g with _ | lf
  · rfl
  · rw [Option.bind_some, if_neg hP]
    by_cases h0 : P.nvars = 0
    · rw [if_pos h0]
    · rw [if_neg h0, h.resolve_left h0]
      rfl

theorem export_names {g : Gens} {P : MpzParam} {pts : List (List Box)} {o : Out} (h : exportJ g P pts = some o) : o.names = buffers g := by
  unfold exportJ at h
  obtain ⟨lf, -, h⟩ := Option.bind_eq_some_iff.mp h
  by_cases h1 : 0 < P.dim ∨ (P.dim = 0 ∧ P.dquot = 0)
  · rw [if_pos h1] at h
    rw [← Option.some.inj h]
  · rw [if_neg h1] at h
    by_cases h2 : P.nvars = 0
    · rw [if_pos h2] at h
      exact absurd h (by simp)
    · rw [if_neg h2] at h
      obtain ⟨cs, -, h⟩ := Option.bind_eq_some_iff.mp h
      simp only at h
      split_ifs at h <;> rw [← Option.some.inj h]

theorem of_ok {x : Option Out} {o : Out} (h : Res.ok o = Res.of x) : x = some o := by
  cases x with
  | none => exact absurd h (by simp [Res.of])
  | some o' =>
    injection h with h
    rw [h]

theorem restart_nvars {handling : ℕ} {g g' : Gens} {r : Result} (h : restart handling g r = some g') : g.nvars ≤ g'.nvars := by
  have hundo : (undo g).1.nvars = g.nvars := by
    unfold undo
    split_ifs <;> simp [swapVars]
  have hext : ∀ g : Gens, g.nvars ≤ (if g.lfbc = 0 then extend g else g).nvars := by
    intro g
    split_ifs
    · exact Nat.le_succ _
    · exact le_rfl
  have hch : (change g).1.nvars = g.nvars := by
    unfold change
    rcases hu : undo g with ⟨g1, _ | _⟩ <;> rw [hu] at hundo
    · exact hundo
    · exact hundo
  have hlin : ∀ {g1 : Gens}, addLinear g1 = some g' → g1.nvars ≤ g'.nvars := by
    intro g1 h
    refine (hext g1).trans ?_
    unfold addLinear at h
    generalize (if g1.lfbc = 0 then extend g1 else g1) = g2 at h ⊢
    unfold setForm at h
    simp only at h
    split_ifs at h <;> obtain ⟨v, -, rfl⟩ := Option.map_eq_some_iff.mp h <;> exact le_rfl
  have hrand : ∀ (d : List ℤ) (g1 : Gens), g1.nvars ≤ (addRandom d g1).nvars := by
    intro d g1
    refine (hext g1).trans ?_
    unfold addRandom
    generalize (if g1.lfbc = 0 then extend g1 else g1) = g2
    unfold setRandom
    simp only
    split_ifs <;> exact le_rfl
  cases r with
  | failed =>
    simp only [restart] at h
    by_cases h0 : 0 < handling
    · rw [if_pos h0] at h
      rcases hc : change g with ⟨g1, _ | _⟩ <;> rw [hc] at h hch <;> simp only at h hch
      · by_cases h1 : handling = 2
        · rw [if_pos h1] at h
          exact hch.ge.trans (hlin h)
        · rw [if_neg h1] at h
          exact absurd h (by simp)
      · obtain rfl := Option.some.inj h
        exact hch.ge
    · rw [if_neg h0] at h
      exact absurd h (by simp)
  | generic d =>
    simp only [restart] at h
    by_cases h1 : handling = 2
    · rw [if_pos h1] at h
      obtain rfl := Option.some.inj h
      refine le_trans ?_ (hrand _ _)
      split_ifs
      · exact hundo.ge
      · exact le_rfl
    · rw [if_neg h1] at h
      exact absurd h (by simp)

theorem loop_nvars {handling : ℕ} {us : ℤ} {p : ℕ} [Fact p.Prime] {g0 g : Gens} {chk : Bool} {rs : List Result} (h : Solve.Loop handling us p g0 g chk rs) :
    g0.nvars ≤ g.nvars := by
  induction h with
  | start => exact le_rfl
  | failed _ _ hr ih => exact ih.trans (restart_nvars hr)
  | generic _ _ _ _ hr ih => exact ih.trans (restart_nvars hr)

theorem elim_length (nv nsols : ℕ) (m : PSt) : (paramData nv nsols m).elim.length = nsols + 1 := by
  simp [paramData]

theorem export_param {g : Gens} (hpos : 1 ≤ g.nvars) {d nsols : ℕ} (hd : 0 < d) (m : PSt) {lf : Option (List ℤ)} (hf : formOf g = some lf) {n : ℕ}
    {pts : List (List Box)} (hpts : ∀ bs ∈ pts, bs.length = n) :
    ∃ o, exportJ g (paramJ g.nvars d nsols m) pts = some o ∧
      o.ld = g.nvars + 1 ∧ o.nvars = g.nvars ∧ o.dim = 0 ∧ o.dquot = d ∧ o.names = buffers g ∧ o.form = lf ∧ o.nsols = pts.length ∧
      (∃ lens cfs, o.lens = some lens ∧ o.cfs = some cfs ∧
        (lens = (paramData g.nvars nsols m).elim.length :: (paramData g.nvars nsols m).denom.length :: ((paramData g.nvars nsols m).coords.getD []).map (fun c => c.1.length + 1) ∧
          cfs = (paramData g.nvars nsols m).elim ++ (paramData g.nvars nsols m).denom ++ ((paramData g.nvars nsols m).coords.getD []).flatMap fun c => c.1 ++ [c.2]) ∧
        readParam lens cfs = some ((paramData g.nvars nsols m).elim, (paramData g.nvars nsols m).denom, (paramData g.nvars nsols m).coords.getD [])) ∧
      (0 < o.nsols → ∃ num den, o.num = some num ∧ o.den = some den ∧ readPoints o.nsols n num den = some (boundsOf pts)) := by
  have hc : coordsOf (paramJ g.nvars d nsols m) = some ((paramData g.nvars nsols m).coords.getD []) := by
    unfold coordsOf
    by_cases h : (paramJ g.nvars d nsols m).nvars ≤ 1
    · rw [if_pos h]
      simp only [paramJ] at h
      simp only [paramData, Option.getD_some, show g.nvars - 1 = 0 by omega]
      rfl
    · rw [if_neg h]
      simp only [paramJ, paramData, Option.bind_some, Option.getD_some]
      refine VecRecon.forall₂_mapM _ _ _ ?_
      rw [List.forall₂_map_right_iff]
      refine List.forall₂_same.mpr fun k hk => ?_
      rw [List.mem_range] at hk
      simp [List.getElem?_range hk]
  have hnp : ¬ (0 < (paramJ g.nvars d nsols m).dim ∨ ((paramJ g.nvars d nsols m).dim = 0 ∧ (paramJ g.nvars d nsols m).dquot = 0)) := by
    simp only [paramJ]
    omega
  have hnv : ¬ (paramJ g.nvars d nsols m).nvars = 0 := by
    simp only [paramJ]
    omega
  unfold exportJ
  rw [hf, Option.bind_some, hc]
  simp only [Option.bind_some]
  rw [if_neg hnp, if_neg hnv]
  by_cases h0 : pts.length = 0
  · rw [if_pos h0]
    exact ⟨_, rfl, rfl, rfl, rfl, rfl, rfl, rfl, rfl, ⟨_, _, rfl, rfl, ⟨rfl, rfl⟩, readParam_of _ _ _⟩, fun h => by simp only [h0] at h; omega⟩
  · rw [if_neg h0, if_pos]
    · exact ⟨_, rfl, rfl, rfl, rfl, rfl, rfl, rfl, rfl, ⟨_, _, rfl, rfl, ⟨rfl, rfl⟩, readParam_of _ _ _⟩, fun _ => ⟨_, _, rfl, rfl, readPoints_of hpts⟩⟩
    · rw [numOf_length]
      obtain ⟨bs, l, rfl⟩ := List.exists_cons_of_length_pos (Nat.pos_of_ne_zero h0)
      rw [List.headD_cons, hpts bs List.mem_cons_self, List.length_flatten, flatten_const hpts, List.sum_replicate, smul_eq_mul, mul_assoc]

/-! ### Runs -/

section
variable {names : List (List Char)} {tss : List (List Text.Mon)} {lens : List ℕ} {exps cfs : List ℤ} {handling nt prec gp : ℕ}
  {sys : List (List ((ℤ × ℤ) × List ℤ))} {ps : List ℕ} {r : Res}

/-- The last computation of a call. -/
theorem run_partsJ (h : SystemQ names tss) (ha : Holds names.length tss lens exps cfs) (hrun : Run handling nt prec gp names lens exps cfs sys ps r) :
    ∃ (g : Gens) (chk : Bool) (a : AttQ) (tss' : List (List Text.Mon)) (τ : Fin names.length → Fin g.nvars), Variant names.length tss g.nvars τ tss' ∧
      readGensQ g.nvars g.exps g.mpz 0 g.lens = some sys ∧ sys = tss'.map (qqPoly g.nvars) ∧ StateOk names g τ ∧ AttemptQ 0 nt g chk ps a ∧
      Returns handling prec gp g a r ∧ ∀ prec' gp' r', Returns handling prec' gp' g a r' → Run handling nt prec' gp' names lens exps cfs sys ps r' := by
  obtain ⟨g, chk, rs, a, hloop, hsys, hatt, hret⟩ := hrun
  have hloop0 := hloop
  rw [gens_arrays ha] at hloop
  obtain ⟨hr, hacc⟩ := loop_runQ hloop
  obtain ⟨hinv, -⟩ := run_inv (start_gensOfQ h) rs hacc g hr
  obtain ⟨tss', τ, h1, h2, h3⟩ := state_arraysQ h hinv
  exact ⟨g, chk, a, tss', τ, h1, hsys, Option.some.inj (hsys.symm.trans h2), h3, hatt, hret,
    fun prec' gp' r' h => ⟨g, chk, rs, a, hloop0, hsys, hatt, h⟩⟩

theorem returns_empty {g : Gens} {lf : Option (List ℤ)} (hf : formOf g = some lf) (hr : Returns handling prec gp g .empty r) :
    r = .ok { ld := 1, nvars := g.nvars, dim := 0, dquot := 0, names := buffers g, nsols := 0 } := by
  unfold Returns at hr
  rw [hr, export_none g (Or.inr ⟨rfl, rfl⟩) hf]
  rfl

theorem returns_positive {g : Gens} {lf : Option (List ℤ)} (hf : formOf g = some lf) (hr : Returns handling prec gp g .positive r) :
    r = .ok { ld := 1, nvars := g.nvars, dim := 1, dquot := -1, names := buffers g, nsols := 0 } := by
  unfold Returns at hr
  rw [hr, export_none g (Or.inl one_pos) hf]
  rfl

theorem returns_generic {g : Gens} (hr : Returns handling prec gp g .generic r) : r = .undefined := by
  obtain ⟨-, d, hd, rfl⟩ := hr
  rw [export_undefined _ (by simp only; omega) (Or.inl rfl)]
  rfl

variable {n' : ℕ} {τ : Fin names.length → Fin n'} {tss' : List (List Text.Mon)}

/-- All results for good primes. -/
theorem run_casesJ (h : SystemQ names tss) (ha : Holds names.length tss lens exps cfs) (hrun : Run handling nt prec gp names lens exps cfs sys ps r)
    (hv : Variant names.length tss n' τ tss') (hsys : sys = tss'.map (qqPoly n')) (hgp : ∀ p ∈ ps, GoodPrime (n := n') OKind.drl.mo tss' p) (hnd : ps.Nodup) :
    (idealQ names.length tss = ⊤ ∧ ∃ nms, r = .ok { ld := 1, nvars := n', dim := 0, dquot := 0, names := nms, nsols := 0 }) ∨
    (¬ Module.Finite ℚ (MvPolynomial (Fin names.length) ℚ ⧸ idealQ names.length tss) ∧
      ∃ nms, r = .ok { ld := 1, nvars := n', dim := 1, dquot := -1, names := nms, nsols := 0 }) ∨
    (handling ≠ 2 ∧ (r = .failed ∨ r = .undefined)) ∨
    (idealQ names.length tss ≠ ⊤ ∧ Module.Finite ℚ (MvPolynomial (Fin names.length) ℚ ⧸ idealQ names.length tss) ∧
      ∃ (g : Gens) (τ2 : Fin names.length → Fin g.nvars) (d nsols : ℕ) (m : PSt) (pts : List (List Box)) (o : Out), g.nvars = n' ∧ StateOk names g τ2 ∧
        Rel (idealQ names.length tss) (idealQ g.nvars tss') τ2 ∧ AttGood (idealQ g.nvars tss') ps (.ok d nsols m) ∧ RealPts prec gp g nsols m pts ∧ r = .ok o ∧
        o.ld = g.nvars + 1 ∧ o.nvars = g.nvars ∧ o.dim = 0 ∧ o.dquot = d ∧ o.names = buffers g ∧ o.nsols = pts.length ∧
        ((g.nvars = names.length ∧ o.form = none) ∨
          (g.nvars = names.length + 1 ∧ ∃ v : Fin g.nvars → ℤ, o.form = some (List.ofFn v) ∧ ∑ j, C (v j : ℚ) * X j ∈ idealQ g.nvars tss')) ∧
        (∃ lens cfs, o.lens = some lens ∧ o.cfs = some cfs ∧
          readParam lens cfs = some ((paramData g.nvars nsols m).elim, (paramData g.nvars nsols m).denom, (paramData g.nvars nsols m).coords.getD [])) ∧
        (0 < o.nsols → ∃ num den, o.num = some num ∧ o.den = some den ∧ readPoints o.nsols names.length num den = some (boundsOf pts)) ∧
        ∀ prec' gp' pts', RealPts prec' gp' g nsols m pts' → ∃ o', Run handling nt prec' gp' names lens exps cfs sys ps (.ok o') ∧ o'.lens = o.lens ∧ o'.cfs = o.cfs ∧
          o'.dquot = o.dquot ∧ o'.nsols = pts'.length) := by
  obtain ⟨g, chk, a, tss2, τ2, hv2, hread, hs2, hst, hatt, hret, hre⟩ := run_partsJ h ha hrun
  obtain ⟨ht, hte⟩ := variant_terms hv h.polys h.terms
  have hrows := hsys.symm.trans hs2
  obtain rfl := rows_length hrows ht hte
  have hgood : AttGood (idealQ g.nvars tss') ps a :=
    attempt_good hst.pos ht hte (variant_expanded hv h.expanded) (by rw [hread, hsys]) hatt hgp hnd
  have hI := idealQ_congr hrows
  have hrel : Rel (idealQ names.length tss) (idealQ g.nvars tss') τ2 := hI ▸ variant_rel hv2
  have hform := formOf_spec hst hv2 (by rw [hread, hs2])
  rw [← hI] at hform
  obtain ⟨lf, hlf, hform⟩ : ∃ lf, formOf g = some lf ∧ ((g.nvars = names.length ∧ lf = none) ∨
      (g.nvars = names.length + 1 ∧ ∃ v : Fin g.nvars → ℤ, lf = some (List.ofFn v) ∧ ∑ j, C (v j : ℚ) * X j ∈ idealQ g.nvars tss')) := by
    rcases hform with ⟨h1, h2⟩ | ⟨h1, v, h2, h3⟩
    · exact ⟨_, h2, Or.inl ⟨h1, rfl⟩⟩
    · exact ⟨_, h2, Or.inr ⟨h1, v, rfl, h3⟩⟩
  cases a with
  | empty => exact Or.inl ⟨hrel.top.mpr hgood, _, returns_empty hlf hret⟩
  | positive => exact Or.inr (Or.inl ⟨hrel.finite.not.mpr hgood, _, returns_positive hlf hret⟩)
  | failed => exact Or.inr (Or.inr (Or.inl ⟨hret.1, Or.inl hret.2.2⟩))
  | generic => exact Or.inr (Or.inr (Or.inl ⟨hret.1, Or.inr (returns_generic hret)⟩))
  | bad => exact absurd hret (by simp [Returns])
  | ok d nsols m =>
    obtain ⟨pts, hpts, rfl⟩ := hret
    obtain ⟨o, h1, h2, h3, h4, h5, h6, h7, h8, h9, h10⟩ := export_param (nsols := nsols) hst.pos hgood.2.2.2.1 m hlf (points_length hst hpts)
    refine Or.inr (Or.inr (Or.inr ⟨hrel.top.not.mpr hgood.1, hrel.finite.mpr hgood.2.1, g, τ2, d, nsols, m, pts, o, rfl, hst, hrel, hgood, hpts, by rw [h1]; rfl, h2, h3,
      h4, h5, h6, h8, ?_, ?_, h10, fun prec' gp' pts' hpts' => ?_⟩))
    · rw [h7]
      exact hform
    · obtain ⟨plens, pcfs, e1, e2, e3⟩ := h9
      exact ⟨plens, pcfs, e1, e2, e3.2⟩
    · obtain ⟨o', i1, -, -, -, i5, -, -, i8, i9, -⟩ := export_param (nsols := nsols) hst.pos hgood.2.2.2.1 m hlf (points_length hst hpts')
      obtain ⟨plens, pcfs, e1, e2, ⟨e3, e4⟩, -⟩ := h9
      obtain ⟨plens', pcfs', e1', e2', ⟨e3', e4'⟩, -⟩ := i9
      exact ⟨o', hre _ _ _ ⟨pts', hpts', by rw [i1]; rfl⟩, by rw [e1, e1', e3, e3'], by rw [e2, e2', e4, e4'], by rw [h5, i5], i8⟩

/-- The boxes that are read back. -/
theorem boxes_of {g : Gens} {τ2 : Fin names.length → Fin g.nvars} (hst : StateOk names g τ2) {I : Ideal (MvPolynomial (Fin names.length) ℚ)}
    {I' : Ideal (MvPolynomial (Fin g.nvars) ℚ)} (hrel : Rel I I' τ2) {d nsols : ℕ} {m : PSt} (hgood : AttGood I' ps (.ok d nsols m)) {pts : List (List Box)}
    (hpts : RealPts prec gp g nsols m pts) (hgp1 : gp ≤ 1) (hel : (paramData g.nvars nsols m).elim.length = d + 1) (hsm : d + 1 < 2 ^ 32)
    (hex : ExactFor I' (paramData g.nvars nsols m).elim ((paramData g.nvars nsols m).coords.getD [])) (hap : RootsApart (paramData g.nvars nsols m).elim (max prec 128)) :
    ∃ sols, RealZeros I sols ∧ (boundsOf pts).length = sols.length ∧ (HornerSafe (paramData g.nvars nsols m).elim (paramData g.nvars nsols m).denom (max prec 128) →
      List.Forall₂ (InBox names (boxOrder gp names (g.vnames.map String.toList))) (boundsOf pts) sols) := by
  obtain ⟨h1, h2, h3, h4, h5⟩ := hgood
  unfold RealPts at hpts
  rw [if_neg (by omega)] at hpts
  obtain ⟨shl, K, raw, hK, rfl⟩ := hpts
  obtain rfl : nsols = d := by simpa [paramData] using hel
  obtain ⟨last, w, c, hl, hS, hsep, hwd, hL⟩ := h5 rfl hsm
  obtain ⟨he, hc⟩ := hex last w c hl hS
  obtain ⟨K', raw', sols, hK', hz, hlen, hin⟩ := real_core (gp := gp) hst hrel h4 hl hS hsep hwd hL he hc hap shl
  obtain rfl : raw = raw' := by
    have e1 := hK (max K K') (le_max_left _ _)
    rw [hK' _ (le_max_right _ _)] at e1
    injection e1 with e1
    exact e1.symm
  exact ⟨sols, hz, hlen, fun hsafe => hin (safe_of h4 hsafe)⟩

end

end Julia

open Verif.F4 Verif.Spec Verif.VarOrder Verif.SolveQ Verif.Julia Verif.Spec.Julia Verif.Spec.Solutions
open Verif.Spec.Text (SystemQ idealQ Variant GoodPrime)
open Verif.Parse (qqPoly)
open MvPolynomial

/-- C84: polynomials with positive denominators are the terms `tss` of the statements below. -/
theorem C84_input {n : ℕ} {fs : List (List ((ℤ × ℤ) × (Fin n → ℕ)))} (h : ∀ f ∈ fs, ∀ t ∈ f, 0 < t.1.2) :
    ∃ tss : List (List Text.Mon), (tss.map fun ts => ts.map fun t => ((t.numer, t.denom), t.vec n)) = fs := by
  refine ⟨fs.map fun f => f.map SolveQ.monOf, ?_⟩
  rw [List.map_map]
  refine (List.map_congr_left fun f hf => ?_).trans (List.map_id _)
  rw [Function.comp_apply, List.map_map]
  refine (List.map_congr_left fun t ht => ?_).trans (List.map_id _)
  rw [Function.comp_apply, SolveQ.monOf_vec]
  have h1 : (SolveQ.monOf t).numer = t.1.1 := PrintQq.qMon_numer _ _ _ _ _
  have h2 : (SolveQ.monOf t).denom = t.1.2 := PrintQq.qMon_denom _ _ _ (h f hf t ht) _
  rw [h1, h2]
  rfl

section
variable {names : List (List Char)} {tss : List (List Text.Mon)} {lens : List ℕ} {exps cfs : List ℤ} {handling nt prec gp : ℕ}
  {sys : List (List ((ℤ × ℤ) × List ℤ))} {ps : List ℕ} {r : Res}

/-- C84: the system of the last computation is the one of the caller, with two variables exchanged or with an additional linear form. -/
theorem C84_system (h : SystemQ names tss) (ha : Holds names.length tss lens exps cfs) (hrun : Julia.Run handling nt prec gp names lens exps cfs sys ps r) :
    ∃ (n' : ℕ) (τ : Fin names.length → Fin n') (tss' : List (List Text.Mon)), Variant names.length tss n' τ tss' ∧ sys = tss'.map (qqPoly n') := by
  obtain ⟨g, -, -, tss', τ, h1, -, h2, -⟩ := Julia.run_partsJ h ha hrun
  exact ⟨g.nvars, τ, tss', h1, h2⟩

variable {n' : ℕ} {τ : Fin names.length → Fin n'} {tss' : List (List Text.Mon)}

/-- C84: with `genericity_handling = 2` a call that ends returns arrays (for good primes): no access outside of an array, no failure. -/
theorem C84_defined (h : SystemQ names tss) (ha : Holds names.length tss lens exps cfs) (hrun : Julia.Run 2 nt prec gp names lens exps cfs sys ps r)
    (hv : Variant names.length tss n' τ tss') (hsys : sys = tss'.map (qqPoly n')) (hgp : ∀ p ∈ ps, GoodPrime (n := n') OKind.drl.mo tss' p) (hnd : ps.Nodup) :
    ∃ o, r = .ok o := by
  rcases Julia.run_casesJ h ha hrun hv hsys hgp hnd with ⟨-, _, h1⟩ | ⟨-, _, h1⟩ | ⟨h1, -⟩ | ⟨-, -, _, _, _, _, _, _, o, -, -, -, -, -, h1, -⟩
  · exact ⟨_, h1⟩
  · exact ⟨_, h1⟩
  · exact absurd rfl h1
  · exact ⟨o, h1⟩

variable {o : Out}

/-- C84: for good primes `dim = 0` and `dquot = 0` is returned exactly if the polynomials generate the unit ideal. -/
theorem C84_empty (h : SystemQ names tss) (ha : Holds names.length tss lens exps cfs) (hrun : Julia.Run handling nt prec gp names lens exps cfs sys ps (.ok o))
    (hv : Variant names.length tss n' τ tss') (hsys : sys = tss'.map (qqPoly n')) (hgp : ∀ p ∈ ps, GoodPrime (n := n') OKind.drl.mo tss' p) (hnd : ps.Nodup) :
    (o.dim = 0 ∧ o.dquot = 0) ↔ idealQ names.length tss = ⊤ := by
  have htop : idealQ names.length tss = ⊤ → Module.Finite ℚ (MvPolynomial (Fin names.length) ℚ ⧸ idealQ names.length tss) := by
    intro ht
    have : Subsingleton (MvPolynomial (Fin names.length) ℚ ⧸ idealQ names.length tss) := Ideal.Quotient.subsingleton_iff.mpr ht
    infer_instance
  rcases Julia.run_casesJ h ha hrun hv hsys hgp hnd with ⟨h0, _, h1⟩ | ⟨h0, _, h1⟩ | ⟨-, h1 | h1⟩ | ⟨h0, -, _, _, d, _, _, _, o', -, -, -, hg, -, h1, -, -, h2, h3, -⟩
  · injection h1 with h1
    subst h1
    exact ⟨fun _ => h0, fun _ => ⟨rfl, rfl⟩⟩
  · injection h1 with h1
    subst h1
    exact ⟨fun h => absurd h.1 one_ne_zero, fun h => absurd (htop h) h0⟩
  · exact absurd h1 (by simp)
  · exact absurd h1 (by simp)
  · injection h1 with h1
    subst h1
    have := hg.2.2.2.1
    exact ⟨fun h => by omega, fun h => absurd h h0⟩

/-- C84: for good primes a positive `dim` is returned exactly if the quotient ring has infinite dimension. -/
theorem C84_positive (h : SystemQ names tss) (ha : Holds names.length tss lens exps cfs) (hrun : Julia.Run handling nt prec gp names lens exps cfs sys ps (.ok o))
    (hv : Variant names.length tss n' τ tss') (hsys : sys = tss'.map (qqPoly n')) (hgp : ∀ p ∈ ps, GoodPrime (n := n') OKind.drl.mo tss' p) (hnd : ps.Nodup) :
    0 < o.dim ↔ ¬ Module.Finite ℚ (MvPolynomial (Fin names.length) ℚ ⧸ idealQ names.length tss) := by
  have htop : idealQ names.length tss = ⊤ → Module.Finite ℚ (MvPolynomial (Fin names.length) ℚ ⧸ idealQ names.length tss) := by
    intro ht
    have : Subsingleton (MvPolynomial (Fin names.length) ℚ ⧸ idealQ names.length tss) := Ideal.Quotient.subsingleton_iff.mpr ht
    infer_instance
  rcases Julia.run_casesJ h ha hrun hv hsys hgp hnd with ⟨h0, _, h1⟩ | ⟨h0, _, h1⟩ | ⟨-, h1 | h1⟩ | ⟨-, h0, _, _, d, _, _, _, o', -, -, -, -, -, h1, -, -, h2, h3, -⟩
  · injection h1 with h1
    subst h1
    exact ⟨fun h => absurd h (lt_irrefl 0), fun h => absurd (htop h0) h⟩
  · injection h1 with h1
    subst h1
    exact ⟨fun _ => h0, fun _ => one_pos⟩
  · exact absurd h1 (by simp)
  · exact absurd h1 (by simp)
  · injection h1 with h1
    subst h1
    exact ⟨fun h => by omega, fun h => absurd h0 h⟩

/-- C84 (partial): for good primes and finitely many solutions (at least one) the arrays that are returned hold a parametrization, the names of its variables, the linear form
(if a variable has been added: one more name) and boxes.  `dquot` is the dimension of the quotient ring.  If the eliminating polynomial has degree `dquot`, the parametrization is
lifted from images of the exact one; if it is exact, it describes exactly the solutions of the caller's system over every field that contains the rationals.  If the
roots are not closer than `2^-max(prec, 128)`, there is one box for each real solution; if the evaluation of the denominator is safe, it contains the solution.  The
coordinates of the boxes are those of the caller's variables: in the caller's order if no parametrization is requested, otherwise in the order of the
returned names.
Missing: exactness, parametrizations of smaller degree, closer roots, unsafe evaluations. -/
theorem C84_solutions_partial (h : SystemQ names tss) (hA : ['A'] ∉ names) (hnul : ∀ nm ∈ names, '\x00' ∉ nm) (ha : Holds names.length tss lens exps cfs)
    (hrun : Julia.Run handling nt prec gp names lens exps cfs sys ps (.ok o))
    (hv : Variant names.length tss n' τ tss') (hsys : sys = tss'.map (qqPoly n')) (hgp : ∀ p ∈ ps, GoodPrime (n := n') OKind.drl.mo tss' p) (hnd : ps.Nodup)
    (h0 : idealQ names.length tss ≠ ⊤) (hfin : Module.Finite ℚ (MvPolynomial (Fin names.length) ℚ ⧸ idealQ names.length tss)) :
    ∃ (d : ℕ) (plens : List ℕ) (pcfs elim denom : List ℤ) (coords : List (List ℤ × ℤ)) (boxes : List (List (ℚ × ℚ))),
      o.dim = 0 ∧ o.dquot = d ∧ o.ld = o.names.length + 1 ∧ o.nvars = o.names.length ∧
      o.lens = some plens ∧ o.cfs = some pcfs ∧ readParam plens pcfs = some (elim, denom, coords) ∧
      SolveQ.Result0 names (idealQ names.length tss) (idealQ n' tss') ps d (o.names.map nameOf) elim denom coords ∧
      ((o.names.length = names.length ∧ o.form = none) ∨
        (o.names.length = names.length + 1 ∧ ∃ v : Fin n' → ℤ, o.form = some (List.ofFn v) ∧ ∑ j, C (v j : ℚ) * X j ∈ idealQ n' tss')) ∧
      boxes.length = o.nsols ∧ (0 < o.nsols → ∃ num den, o.num = some num ∧ o.den = some den ∧ readPoints o.nsols names.length num den = some boxes) ∧ (1 < gp → o.nsols = 0) ∧
      (gp ≤ 1 → elim.length = d + 1 → d + 1 < 2 ^ 32 → ExactFor (idealQ n' tss') elim coords → RootsApart elim (max prec 128) →
        ∃ sols, RealZeros (idealQ names.length tss) sols ∧ boxes.length = sols.length ∧
          (HornerSafe elim denom (max prec 128) →
            List.Forall₂ (InBox names (if gp = 0 then names else (o.names.map nameOf).take names.length)) boxes sols)) := by
  rcases Julia.run_casesJ h ha hrun hv hsys hgp hnd with ⟨h1, -⟩ | ⟨h1, -⟩ | ⟨-, h1 | h1⟩ |
    ⟨-, -, g, τ2, d, nsols, m, pts, o', rfl, hst, hrel, hgood, hpts, h1, h2, h3, h4, h5, h6, h7, h8, ⟨plens, pcfs, h9, h10, h11⟩, h12, -⟩
  · exact absurd h1 h0
  · exact absurd hfin h1
  · exact absurd h1 (by simp)
  · exact absurd h1 (by simp)
  · injection h1 with h1
    subst h1
    have hbuf := Julia.buffers_names hnul hst
    have hlen : o.names.length = g.nvars := by
      have := congrArg List.length hbuf
      rw [List.length_map, List.length_map, hst.len] at this
      rw [h6, this]
    refine ⟨d, plens, pcfs, _, _, _, boundsOf pts, h4, h5, by rw [h2, hlen], by rw [h3, hlen], h9, h10, h11, ?_, by rw [hlen]; exact h8, ?_, h12, ?_, ?_⟩
    · rw [h6, hbuf]
      exact SolveQ.result_ok hA hst hrel hgood
    · rw [h7]
      simp [boundsOf]
    · intro hg
      unfold RealPts at hpts
      rw [if_pos hg] at hpts
      rw [h7, hpts]
      rfl
    · intro hg1 hel hsm hex hap
      obtain ⟨sols, s1, s2, s3⟩ := Julia.boxes_of hst hrel hgood hpts hg1 hel hsm hex hap
      refine ⟨sols, s1, s2, fun hs => ?_⟩
      rw [h6, hbuf]
      exact s3 hs

/-- C84 (partial): a call that returns an exact parametrization of degree `dquot` also ends when the real solutions are requested, and returns the same parametrization and
the number of real solutions, if the roots have a distance of `2^-max(prec, 128)` at least.
Missing: exactness, parametrizations of smaller degree, closer roots. -/
theorem C84_ends_partial (h : SystemQ names tss) (ha : Holds names.length tss lens exps cfs) (hrun : Julia.Run handling nt prec gp names lens exps cfs sys ps (.ok o))
    (hv : Variant names.length tss n' τ tss') (hsys : sys = tss'.map (qqPoly n')) (hgp : ∀ p ∈ ps, GoodPrime (n := n') OKind.drl.mo tss' p) (hnd : ps.Nodup)
    {plens : List ℕ} {pcfs elim denom : List ℤ} {coords : List (List ℤ × ℤ)} (hl : o.lens = some plens) (hc : o.cfs = some pcfs)
    (hp : readParam plens pcfs = some (elim, denom, coords)) (hel : elim.length = o.dquot + 1) (hsm : elim.length < 2 ^ 32) (hex : ExactFor (idealQ n' tss') elim coords)
    {prec' gp' : ℕ} (hap : RootsApart elim (max prec' 128)) (hgp' : gp' ≤ 1) :
    ∃ o' sols, Julia.Run handling nt prec' gp' names lens exps cfs sys ps (.ok o') ∧ o'.lens = o.lens ∧ o'.cfs = o.cfs ∧ o'.dquot = o.dquot ∧
      RealZeros (idealQ names.length tss) sols ∧ o'.nsols = sols.length := by
  rcases Julia.run_casesJ h ha hrun hv hsys hgp hnd with ⟨-, _, h1⟩ | ⟨-, _, h1⟩ | ⟨-, h1 | h1⟩ |
    ⟨-, -, g, τ2, d, nsols, m, pts, o', rfl, hst, hrel, hgood, hpts, h1, h2, h3, h4, h5, h6, h7, h8, ⟨plens', pcfs', h9, h10, h11⟩, h12, h13⟩
  · injection h1 with h1
    subst h1
    exact absurd hl (by simp)
  · injection h1 with h1
    subst h1
    exact absurd hl (by simp)
  · exact absurd h1 (by simp)
  · exact absurd h1 (by simp)
  · injection h1 with h1
    subst h1
    obtain rfl := Option.some.inj (hl.symm.trans h9)
    obtain rfl := Option.some.inj (hc.symm.trans h10)
    have he := hp.symm.trans h11
    simp only [Option.some.injEq, Prod.mk.injEq] at he
    obtain ⟨rfl, rfl, rfl⟩ := he
    obtain ⟨-, -, -, k4, k5⟩ := hgood
    obtain rfl : nsols = d := by
      rw [h5] at hel
      simp only [Julia.elim_length] at hel
      omega
    obtain ⟨last, w, c, hl', hS, hsep, hwd, hL⟩ := k5 rfl (by rw [Julia.elim_length] at hsm; exact hsm)
    obtain ⟨he, hc'⟩ := hex last w c hl' hS
    obtain ⟨K', raw', sols, hK', hz, hlen, -⟩ := SolveReal.real_core (gp := gp') hst hrel k4 hl' hS hsep hwd hL he hc' hap fun _ => 0
    obtain ⟨o', j1, j2, j3, j5, j4⟩ := h13 prec' gp' (raw'.map (shown gp' g)) (by
      unfold RealPts
      rw [if_neg (by omega)]
      exact ⟨_, K', raw', hK', rfl⟩)
    refine ⟨o', sols, j1, j2, j3, j5, hz, ?_⟩
    rw [j4, ← hlen]
    simp [boundsOf]

/-- C84: the returned names are not terminated: each of the caller's names is returned in a buffer of `strlen` bytes. -/
theorem C84_unterminated (h : SystemQ names tss) (hnul : ∀ nm ∈ names, '\x00' ∉ nm) (ha : Holds names.length tss lens exps cfs)
    (hrun : Julia.Run handling nt prec gp names lens exps cfs sys ps (.ok o)) (i : Fin names.length) : ∃ k : ℕ, o.names[k]? = some names[i] ∧ cString names[i] = none := by
  obtain ⟨g, chk, a, tss', τ, h1, h2, h3, h4, h5, h6, -⟩ := Julia.run_partsJ h ha hrun
  obtain ⟨h7, h8⟩ := Julia.buffers_open hnul h4 i
  have key : ∀ {P pts o}, exportJ g P pts = some o → o.names = buffers g := Julia.export_names
  refine ⟨(τ i).val, ?_, h8⟩
  cases a with
  | empty => rw [key (Julia.of_ok h6)]; exact h7
  | positive => rw [key (Julia.of_ok h6)]; exact h7
  | failed => exact absurd h6.2.2 (by simp)
  | generic => exact absurd (Julia.returns_generic h6) (by simp)
  | bad => exact absurd h6 (by simp [Returns])
  | ok d nsols m =>
    obtain ⟨pts, -, h6⟩ := h6
    rw [key (Julia.of_ok h6)]
    exact h7

/-- C84: if a linear form was added, the last name that is returned is terminated: it is `A`, the name of the added variable. -/
theorem C84_added (h : SystemQ names tss) (hA : ['A'] ∉ names) (ha : Holds names.length tss lens exps cfs)
    (hrun : Julia.Run handling nt prec gp names lens exps cfs sys ps (.ok o)) (hlen : o.names.length = names.length + 1) :
    ∃ b, o.names[names.length]? = some b ∧ cString b = some ['A'] := by
  obtain ⟨g, chk, a, tss', τ, h1, h2, h3, h4, h5, h6, -⟩ := Julia.run_partsJ h ha hrun
  have key : ∀ {P pts o}, exportJ g P pts = some o → o.names = buffers g := Julia.export_names
  have hb : o.names = buffers g := by
    cases a with
    | empty => exact key (Julia.of_ok h6)
    | positive => exact key (Julia.of_ok h6)
    | failed => exact absurd h6.2.2 (by simp)
    | generic => exact absurd (Julia.returns_generic h6) (by simp)
    | bad => exact absurd h6 (by simp [Returns])
    | ok d nsols m =>
      obtain ⟨pts, -, h6⟩ := h6
      exact key (Julia.of_ok h6)
  rw [hb] at hlen ⊢
  exact Julia.buffers_added hA h4 hlen

end

/-- C84: a call with `genericity_handling` other than 2 that ends with the return value 2 of the last computation (no generic position) writes outside of an array. -/
theorem C84_generic_undefined {handling prec gp : ℕ} {g : Gens} {r : Res} (h : Returns handling prec gp g .generic r) : r = .undefined := Julia.returns_generic h

/-- C84: with a prime characteristic and two variables at least, a call that computes a parametrization dereferences a null pointer. -/
theorem C84_prime_undefined {handling p : ℕ} [Fact p.Prime] {names : List (List Char)} {lens : List ℕ} {exps cfs : List ℤ} {d : ℕ} {r : Res} (hn : 2 ≤ names.length)
    (hd : 0 < d) (hrun : RunP handling p names lens exps cfs d r) : r = .undefined := by
  obtain ⟨g, chk, rs, w, cs, hloop, -, hr⟩ := hrun
  have h2 : 2 ≤ g.nvars := le_trans hn (Julia.loop_nvars hloop)
  unfold ReturnsP at hr
  rw [hr, Julia.export_undefined g (by simp only; omega) (Or.inr (by unfold coordsOf; rw [if_neg (by simp only; omega)]; rfl))]
  rfl

end Verif.Props
