import Verif.Output

/-! Property C71: the text of the solutions determines the result. -/

namespace Verif.Props

open Verif.Output Verif.Spec.Output Verif.VarOrder Verif.RealPoints Verif.PrintQq

/-- The bounds of the boxes. -/
def boundsOf (pts : List (List Box)) : List (List (ℚ × ℚ)) :=
  pts.map fun bs => bs.map fun b => ((b.vdo : ℚ) / 2 ^ b.kdo, (b.vup : ℚ) / 2 ^ b.kup)

/-- A printed parametrization over the rationals: characteristic, number of variables, degree, names, linear form, eliminating
polynomial, denominator, coordinates with their denominators. -/
def ratParam (nvars dquot : ℤ) (names : List (List Char)) (form : List ℚ) (elim denom : List ℤ) (coords : List (List ℤ × ℤ)) : Tree :=
  .list [.num 0, .num nvars, .num dquot, .list (names.map .str), .list (form.map .num),
    .list [.num 1, .list [poly elim, poly denom, .list (coords.map fun q => .list [poly q.1, .num q.2])]]]

/-- A printed parametrization in positive characteristic. -/
def modParam (fc nvars dquot : ℤ) (names : List (List Char)) (form : List ℚ) (elim denom : List ℤ) (coords : List (List ℤ)) : Tree :=
  .list [.num fc, .num nvars, .num dquot, .list (names.map .str), .list (form.map .num),
    .list [.num 1, .list [poly elim, poly denom, .list (coords.map fun q => .list [poly q])]]]

/-- C71: no solutions in an algebraic closure: `[-1]`. -/
theorem C71_empty (g : Gens) (dim : ℤ) (gp : ℕ) (D : ParamData) (pts : List (List Box)) :
    ∃ w, displayOutput g dim 0 gp D pts = some w ∧ readOutput w = some (.list [.num (-1)]) := by
  refine ⟨_, if_pos rfl, ?_⟩
  have := read_items (items_mpz (-1)).list
  simpa [mpzText_neg] using this

/-- C71: positive dimension: `[1, nvars, -1, []]`. -/
theorem C71_dim (g : Gens) {dim dquot : ℤ} (hdim : 0 < dim) (hq : dquot ≠ 0) (gp : ℕ) (D : ParamData) (pts : List (List Box)) :
    ∃ w, displayOutput g dim dquot gp D pts = some w ∧ readOutput w = some (.list [.num 1, .num g.nvars, .num (-1), .list []]) := by
  unfold displayOutput
  rw [if_neg hq, if_pos hdim, if_neg (by omega)]
  refine ⟨_, rfl, ?_⟩
  have := read_items ((((items_mpz 1).append (items_mpz g.nvars) white_sp).append (items_mpz (-1)) white_sp).append
    (items_empty white_nil) white_sp).list
  simpa [mpzText_neg, mpzText_one] using this

theorem printedForm_den {g : Gens} {nums : List ℤ} {den : ℤ} (h : printedForm g = some (nums, den)) (hr : ¬ (g.rand = true ∧ g.fc = 0)) :
    den = 1 := by
  unfold printedForm at h
  by_cases h1 : g.rand = true
  · have h2 : g.fc ≠ 0 := fun h3 => hr ⟨h1, h3⟩
    simp only [h1, if_true, if_neg h2, Option.some.injEq, Prod.mk.injEq] at h
    exact h.2.symm
  · rw [if_neg h1] at h
    split at h
    · rw [Option.map_eq_some_iff] at h
      obtain ⟨v, -, hv⟩ := h
      exact (Prod.mk.inj hv).2.symm
    · exact (Prod.mk.inj (Option.some.inj h)).2.symm

theorem display_zero (g : Gens) {dquot : ℤ} (hq : 0 < dquot) (gp : ℕ) (D : ParamData) (pts : List (List Box)) :
    displayOutput g 0 dquot gp D pts = (if 1 ≤ gp ∨ g.fc ≠ 0 then paramText g dquot D else some []).map fun t =>
      "[0, ".toList ++ t ++
        (if gp ≤ 1 ∧ g.fc = 0 then (if gp ≠ 0 then [','] else []) ++ (showPoints pts).toList else []) ++ "]:\n".toList := by
  have h : (0 : ℤ) = 0 ∧ 0 ≤ dquot := ⟨rfl, hq.le⟩
  unfold displayOutput
  rw [if_neg hq.ne', if_neg (lt_irrefl (0 : ℤ)), if_pos h]
  simp only [List.append_nil, Option.map_map, Function.comp_def]

/-- C71: over the rationals, without parametrization: `[0, points]`. -/
theorem C71_points {g : Gens} (hfc : g.fc = 0) {dquot : ℤ} (hq : 0 < dquot) (D : ParamData) (pts : List (List Box)) :
    ∃ w, displayOutput g 0 dquot 0 D pts = some w ∧ readOutput w = some (.list [.num 0, points (boundsOf pts)]) := by
  have h0 : ¬ (1 ≤ 0 ∨ g.fc ≠ 0) := by simp [hfc]
  rw [display_zero g hq, if_neg h0]
  refine ⟨_, rfl, ?_⟩
  have := read_items ((items_mpz 0).append (items_points pts) white_sp).list
  simpa [mpzText_zero, hfc, boundsOf] using this

/-- C71: over the rationals, with parametrization: `[0, param, points]` for `-P 1`, `[0, param]` for `-P 2`. -/
theorem C71_param {g : Gens} (hfc : g.fc = 0) {dquot : ℤ} (hq : 0 < dquot) {gp : ℕ} (hgp : 1 ≤ gp) {D : ParamData} (hfit : D.fits g)
    {nums : List ℤ} {den : ℤ} (hpf : printedForm g = some (nums, den)) (hd : 0 < den) (hnm : ∀ s ∈ g.vnames, '\'' ∉ s.toList)
    (pts : List (List Box)) :
    ∃ w, displayOutput g 0 dquot gp D pts = some w ∧ readOutput w = some (.list (.num 0 ::
      ratParam g.nvars dquot ((g.vnames.take g.nvars).map String.toList) (nums.map fun a : ℤ => (a : ℚ) / den) D.elim D.denom
        ((D.coords.getD []).take (g.nvars - 1)) :: if gp = 1 then [points (boundsOf pts)] else [])) := by
  obtain ⟨w, h1, h2⟩ := items_param (dquot := dquot) hfit hpf hd (printedForm_den hpf) hnm
  have h0 : 1 ≤ gp ∨ g.fc ≠ 0 := .inl hgp
  rw [display_zero g hq, if_pos h0, h1]
  refine ⟨_, rfl, ?_⟩
  have e := (items_mpz 0).append h2 white_sp
  by_cases hg : gp = 1
  · subst hg
    have := read_items (e.append (items_points pts) white_nil).list
    simpa [mpzText_zero, hfc, boundsOf, ratParam, ParamData.tree, Function.comp_def] using this
  · have := read_items e.list
    have hg' : ¬ (gp ≤ 1 ∧ g.fc = 0) := by omega
    simpa [mpzText_zero, hfc, hg, hg', ratParam, ParamData.tree, Function.comp_def, show ¬ gp ≤ 1 by omega] using this

/-- C71: in positive characteristic: `[0, param]`. -/
theorem C71_mod {g : Gens} (hfc : g.fc ≠ 0) {dquot : ℤ} (hq : 0 < dquot) (gp : ℕ) {D : ParamData} (hfit : D.fits g)
    {nums : List ℤ} {den : ℤ} (hpf : printedForm g = some (nums, den)) (hnm : ∀ s ∈ g.vnames, '\'' ∉ s.toList) (pts : List (List Box)) :
    ∃ w, displayOutput g 0 dquot gp D pts = some w ∧ readOutput w = some (.list [.num 0,
      modParam g.fc g.nvars dquot ((g.vnames.take g.nvars).map String.toList) (nums.map fun a : ℤ => (a : ℚ))
        (D.melim.map fun c : ℕ => (c : ℤ)) (D.mdenom.map fun c : ℕ => (c : ℤ))
        ((D.mcoords.getD []).map fun q => q.map fun c : ℕ => (c : ℤ))]) := by
  have hden := printedForm_den hpf (fun h => hfc h.2)
  subst hden
  obtain ⟨w, h1, h2⟩ := items_param (dquot := dquot) hfit hpf one_pos (fun _ => rfl) hnm
  have h0 : 1 ≤ gp ∨ g.fc ≠ 0 := .inr hfc
  rw [display_zero g hq, if_pos h0, h1]
  refine ⟨_, rfl, ?_⟩
  have := read_items ((items_mpz 0).append h2 white_sp).list
  simpa [mpzText_zero, hfc, modParam, ParamData.tree, Function.comp_def] using this

/-! The contents are determined by the value. -/

theorem ints_inj {l l' : List ℤ} (h : ints l = ints l') : l = l' := by
  have := Tree.list.inj h
  exact List.map_injective_iff.mpr (fun a b hab => by simpa using hab) this

theorem poly_inj {l l' : List ℤ} (h : poly l = poly l') : l = l' := by
  simp only [poly, Tree.list.injEq, List.cons.injEq, Tree.num.injEq, and_true] at h
  obtain ⟨h1, h2⟩ := h
  have hl : l.length = l'.length := by
    have : ((l.length : ℤ) - 1) = (l'.length : ℤ) - 1 := by exact_mod_cast h1
    omega
  by_cases h0 : l = []
  · subst h0
    exact (List.length_eq_zero_iff.mp hl.symm).symm
  · have h0' : l' ≠ [] := by rintro rfl; exact h0 (List.length_eq_zero_iff.mp hl)
    rw [if_neg h0, if_neg h0'] at h2
    exact ints_inj h2

theorem points_inj {l l' : List (List (ℚ × ℚ))} (h : points l = points l') : l = l' := by
  simp only [points, Tree.list.injEq, List.cons.injEq, and_true, true_and] at h
  refine List.map_injective_iff.mpr (fun a b hab => ?_) h
  refine List.map_injective_iff.mpr (fun q r hqr => ?_) (Tree.list.inj hab)
  simp only [box, Tree.list.injEq, List.cons.injEq, Tree.num.injEq, and_true] at hqr
  exact Prod.ext hqr.1 hqr.2

theorem ratParam_inj {v d v' d' : ℤ} {n n' : List (List Char)} {f f' : List ℚ} {e q e' q' : List ℤ} {c c' : List (List ℤ × ℤ)}
    (h : ratParam v d n f e q c = ratParam v' d' n' f' e' q' c') : v = v' ∧ d = d' ∧ n = n' ∧ f = f' ∧ e = e' ∧ q = q' ∧ c = c' := by
  simp only [ratParam, Tree.list.injEq, List.cons.injEq, Tree.num.injEq, and_true, true_and, Int.cast_inj] at h
  obtain ⟨h1, h2, h3, h4, h5, h6, h7⟩ := h
  refine ⟨h1, h2, List.map_injective_iff.mpr (fun a b hab => by simpa using hab) h3,
    List.map_injective_iff.mpr (fun a b hab => by simpa using hab) h4, poly_inj h5, poly_inj h6,
    List.map_injective_iff.mpr (fun a b hab => ?_) h7⟩
  simp only [Tree.list.injEq, List.cons.injEq, Tree.num.injEq, and_true, Int.cast_inj] at hab
  exact Prod.ext (poly_inj hab.1) hab.2

theorem modParam_inj {p v d p' v' d' : ℤ} {n n' : List (List Char)} {f f' : List ℚ} {e q e' q' : List ℤ} {c c' : List (List ℤ)}
    (h : modParam p v d n f e q c = modParam p' v' d' n' f' e' q' c') :
    p = p' ∧ v = v' ∧ d = d' ∧ n = n' ∧ f = f' ∧ e = e' ∧ q = q' ∧ c = c' := by
  simp only [modParam, Tree.list.injEq, List.cons.injEq, Tree.num.injEq, and_true, Int.cast_inj] at h
  obtain ⟨h0, h1, h2, h3, h4, -, h5, h6, h7⟩ := h
  refine ⟨h0, h1, h2, List.map_injective_iff.mpr (fun a b hab => by simpa using hab) h3,
    List.map_injective_iff.mpr (fun a b hab => by simpa using hab) h4, poly_inj h5, poly_inj h6,
    List.map_injective_iff.mpr (fun a b hab => ?_) h7⟩
  simp only [Tree.list.injEq, List.cons.injEq, and_true] at hab
  exact poly_inj hab

/-- C71: equal texts have equal bounds: nothing is lost in the list of the solutions. -/
theorem C71_points_determined {g g' : Gens} (hfc : g.fc = 0) (hfc' : g'.fc = 0) {dquot dquot' : ℤ} (hq : 0 < dquot) (hq' : 0 < dquot')
    {D D' : ParamData} {pts pts' : List (List Box)} (h : displayOutput g 0 dquot 0 D pts = displayOutput g' 0 dquot' 0 D' pts') :
    boundsOf pts = boundsOf pts' := by
  obtain ⟨w, h1, h2⟩ := C71_points hfc hq D pts
  obtain ⟨w', h1', h2'⟩ := C71_points hfc' hq' D' pts'
  rw [h1, h1', Option.some.injEq] at h
  rw [h, h2'] at h2
  simp only [Option.some.injEq, Tree.list.injEq, List.cons.injEq, and_true, true_and] at h2
  exact (points_inj h2).symm

/-- C71: equal texts have equal parametrizations and, with `-P 1`, equal bounds. -/
theorem C71_param_determined {g g' : Gens} (hfc : g.fc = 0) (hfc' : g'.fc = 0) {dquot dquot' : ℤ} (hq : 0 < dquot) (hq' : 0 < dquot')
    {gp : ℕ} (hgp : 1 ≤ gp) {D D' : ParamData} (hfit : D.fits g) (hfit' : D'.fits g') {nums nums' : List ℤ} {den den' : ℤ}
    (hpf : printedForm g = some (nums, den)) (hd : 0 < den) (hpf' : printedForm g' = some (nums', den')) (hd' : 0 < den')
    (hnm : ∀ s ∈ g.vnames, '\'' ∉ s.toList) (hnm' : ∀ s ∈ g'.vnames, '\'' ∉ s.toList) {pts pts' : List (List Box)}
    (h : displayOutput g 0 dquot gp D pts = displayOutput g' 0 dquot' gp D' pts') :
    g.nvars = g'.nvars ∧ dquot = dquot' ∧ g.vnames.take g.nvars = g'.vnames.take g'.nvars ∧
    (nums.map fun a : ℤ => (a : ℚ) / den) = (nums'.map fun a : ℤ => (a : ℚ) / den') ∧ D.elim = D'.elim ∧ D.denom = D'.denom ∧
    (D.coords.getD []).take (g.nvars - 1) = (D'.coords.getD []).take (g'.nvars - 1) ∧ (gp = 1 → boundsOf pts = boundsOf pts') := by
  obtain ⟨w, h1, h2⟩ := C71_param hfc hq hgp hfit hpf hd hnm pts
  obtain ⟨w', h1', h2'⟩ := C71_param hfc' hq' hgp hfit' hpf' hd' hnm' pts'
  rw [h1, h1', Option.some.injEq] at h
  rw [← h, h2] at h2'
  simp only [Option.some.injEq, Tree.list.injEq, List.cons.injEq, true_and] at h2'
  obtain ⟨h3, h4⟩ := h2'
  obtain ⟨a1, a2, a3, a4, a5, a6, a7⟩ := ratParam_inj h3
  refine ⟨by exact_mod_cast a1, a2, List.map_injective_iff.mpr (fun a b hab => String.toList_inj.mp hab) a3, a4, a5, a6, a7, fun hg => ?_⟩
  rw [if_pos hg, if_pos hg, List.cons.injEq] at h4
  exact points_inj h4.1

/-- C71: the same in positive characteristic. -/
theorem C71_mod_determined {g g' : Gens} (hfc : g.fc ≠ 0) (hfc' : g'.fc ≠ 0) {dquot dquot' : ℤ} (hq : 0 < dquot) (hq' : 0 < dquot')
    {gp gp' : ℕ} {D D' : ParamData} (hfit : D.fits g) (hfit' : D'.fits g') {nums nums' : List ℤ} {den den' : ℤ}
    (hpf : printedForm g = some (nums, den)) (hpf' : printedForm g' = some (nums', den'))
    (hnm : ∀ s ∈ g.vnames, '\'' ∉ s.toList) (hnm' : ∀ s ∈ g'.vnames, '\'' ∉ s.toList) {pts pts' : List (List Box)}
    (h : displayOutput g 0 dquot gp D pts = displayOutput g' 0 dquot' gp' D' pts') :
    g.fc = g'.fc ∧ g.nvars = g'.nvars ∧ dquot = dquot' ∧ g.vnames.take g.nvars = g'.vnames.take g'.nvars ∧ nums = nums' ∧
    D.melim = D'.melim ∧ D.mdenom = D'.mdenom ∧ D.mcoords.getD [] = D'.mcoords.getD [] := by
  obtain ⟨w, h1, h2⟩ := C71_mod hfc hq gp hfit hpf hnm pts
  obtain ⟨w', h1', h2'⟩ := C71_mod hfc' hq' gp' hfit' hpf' hnm' pts'
  rw [h1, h1', Option.some.injEq] at h
  rw [← h, h2] at h2'
  simp only [Option.some.injEq, Tree.list.injEq, List.cons.injEq, and_true, true_and] at h2'
  obtain ⟨a0, a1, a2, a3, a4, a5, a6, a7⟩ := modParam_inj h2'
  have hn : Function.Injective fun c : ℕ => (c : ℤ) := Nat.cast_injective
  exact ⟨by exact_mod_cast a0, by exact_mod_cast a1, a2, List.map_injective_iff.mpr (fun a b hab => String.toList_inj.mp hab) a3,
    List.map_injective_iff.mpr Int.cast_injective a4, List.map_injective_iff.mpr hn a5, List.map_injective_iff.mpr hn a6,
    List.map_injective_iff.mpr (List.map_injective_iff.mpr hn) a7⟩

/-! An example: two variables and a random linear form. -/

def outGens : Gens := { nvars := 3, fc := 0, lfbc := 1, rand := true, rform := [2, -3, 1], vnames := ["x", "y", "A"], lens := [], exps := [] }
def outData : ParamData := ⟨[-2, 0, 1], [0, 2], some [([4], 3), ([], 1)], [], [], none⟩
def outPts : List (List Box) := [[⟨-10, 3, 0, 1, false⟩, ⟨5, 6, 4, 4, false⟩]]

example : displayOutput outGens 0 2 1 outData outPts = some
    ("[0, [0, \n3, \n2, \n['x', 'y', 'A'],\n[2/15,-3/15,1/15],\n[1,\n[[2, [-2, 0, 1]],\n[1, [0, 2]],\n[\n" ++
     "[[0, [4]],\n3],\n[[-1, [0]],\n1]\n]]]],[1,\n[[[-10, 3 / 2], [5 / 2^4, 6 / 2^4]]]\n]]:\n").toList := by decide +kernel
example : outData.fits outGens ∧ printedForm outGens = some ([2, -3, 1], 15) ∧ ∀ s ∈ outGens.vnames, '\'' ∉ s.toList := by
  decide +kernel
/-- Characteristic seven, and no solutions at all. -/
example : displayOutput { outGens with fc := 7, rand := false, lfbc := 0 } 0 2 0 ⟨[], [], none, [5, 0, 1], [0, 2], some [[4], []]⟩ [] = some
    ("[0, [7, \n3, \n2, \n['x', 'y', 'A'],\n[0, 0, 1],\n[1,\n[[2,\n[5, 0, 1]],\n[1,\n[0, 2]],\n[\n[[0,\n[4]]],\n[[-1,\n[0]]]\n]]]]]:\n").toList := by
  decide +kernel
example : displayOutput outGens 0 2 0 outData [] = some "[0, [1,\n[]\n]]:\n".toList := by decide +kernel

end Verif.Props
