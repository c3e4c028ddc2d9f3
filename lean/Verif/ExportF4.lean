import Verif.EndToEnd
import Verif.Spec.Arrays

/-! The library function `export_f4` over prime fields, src/neogb/f4.c 767-851: from the input arrays to the output arrays. -/

namespace Verif.ExportF4

open Verif.Orders Verif.Import Verif.Normalize Verif.F4 Verif.Spec Verif.EndToEnd
open Verif.Parse (ffPoly)

variable {n : ℕ}

/-- The monomial order chosen by `check_and_set_meta_data`, io.c 823-835, and `set_function_pointers`, io.c 889-920. -/
def ordKindMo (mo : ℤ) (nev : ℕ) : OKind := if nev = 0 ∧ mo = 1 then .lex else ordKind nev

/-- `initial_gens_cmp`, io.c 889-920; for `mon_order = 1` it is `initial_gens_cmp_lex`, order.c 244-267. -/
def gensCmpMo (mo : ℤ) (nv nev : ℕ) (ea eb : ℕ → ℕ) : ℤ :=
  if nev = 0 ∧ mo = 1 then cmpLex (evl nv nev) ea eb else gensCmp nv nev ea eb

/-- The result of `sort_r` with `initial_gens_cmp`, see `SortPerm`. -/
structure SortPermMo (mo : ℤ) (nv nev : ℕ) (f : List (ℕ × (ℕ → ℕ))) (σ : ℕ → ℕ) : Prop where
  lt : ∀ m < f.length, σ m < f.length
  inj : ∀ a < f.length, ∀ b < f.length, σ a = σ b → a = b
  sorted : ∀ i j, i < j → j < f.length →
    gensCmpMo mo nv nev (f.getD (σ i) (0, fun _ => 0)).2 (f.getD (σ j) (0, fun _ => 0)).2 ≤ 0

/-- One generator: import and sorting of the terms, io.c 304-371, `normalize_initial_basis` in engine.c 103-104 and again in f4.c 372. -/
def ImportPolyMo (mo : ℤ) (nv nev p : ℕ) (f : List (ℤ × List ℤ)) (g : Poly nv) : Prop :=
  ∃ σ cf cs cs', SortPermMo mo nv nev (f.map (importTerm nv nev p)) σ ∧
    sortTerms f.length (fun i => (f.map (importTerm nv nev p)).getD i (0, fun _ => 0)) σ = some cf ∧
    normInit (2 * ffBits p) (ffBits p) p ((List.range f.length).map fun i => (cf i).1) = some cs ∧
    normInit (2 * ffBits p) (ffBits p) p cs = some cs' ∧
    g = ((List.range f.length).map fun i => monOf nv nev (cf i).2).zip cs'

/-- Term number `j` in the arrays: the coefficient `cfs[j]`, io.c 322-325, and the exponents `exps[nv*j+i]`, `set_exponent_vector`,
io.c 25-52 (the conversion to `exp_t` is in `importTerm`).  `none`: outside the arrays. -/
def readTerm (nv : ℕ) (exps cfs : List ℤ) (j : ℕ) : Option (ℤ × List ℤ) :=
  (cfs[j]?).bind fun c => ((List.range nv).mapM fun i => exps[nv * j + i]?).map fun e => (c, e)

/-- The generators in the arrays, with the running offset `off`, io.c 288-318, 320-335.  The lengths are assumed not to be negative. -/
def readGens (nv : ℕ) (exps cfs : List ℤ) : ℕ → List ℕ → Option (List (List (ℤ × List ℤ)))
  | _, [] => some []
  | off, l :: ls => ((List.range' off l).mapM (readTerm nv exps cfs)).bind fun f =>
      (readGens nv exps cfs (off + l) ls).map fun r => f :: r

/-- A generator that `validate_input_data` marks as invalid. -/
def bad (f : List (ℤ × List ℤ)) : Bool := invalid (f.map Prod.fst)

/-- The array of coefficients of the caller after the import: `cfs_ff[j] += (cfs_ff[j] >> 31) & fc`, io.c 325 (343, 361), through a pointer
whose `const` is cast away (io.c 319).  Only the first `ngens_input` generators are visited, that is as many as are valid (io.c 755,
engine.c 90). -/
def cfsAfter (p : ℕ) (gens : List (List (ℤ × List ℤ))) (cfs : List ℤ) : List ℤ :=
  let k := (gens.filter fun f => !bad f).length
  let w := (gens.take k).flatMap fun f =>
    if bad f then f.map Prod.fst else f.map fun t => toInt32 (t.1 + if t.1 < 0 then (p : ℤ) else 0)
  w ++ cfs.drop w.length

/-- `export_data`, io.c 480-592, for elements that are not null. -/
def exportArrays (nev : ℕ) (G : List (Poly n)) : Arrays :=
  let e := exportPolys (evl n nev) (ebl nev) (G.map fun g => some (g.map fun t => setEv n nev (ext t.1) fun _ => 0))
  ⟨e.1, e.2.map fun (x : ℕ) => toInt32 (x : ℤ), G.flatMap fun g => g.map fun t => toInt32 t.2⟩

/-- The basis after `core_f4`, f4.c 642-711, for the arguments `mon_order`, `elim_block_len`, `reduce_gb`, and `la_option = 2`, over a prime
field; `nr_gens` is the length of `lens`.  The elements of `G` are those of `bs->lmps`, in this order.  If the basis is not reduced, these are the elements left
by `process_redundant_elements`.  See `EndToEnd.Run`. -/
def Basis (mo : ℤ) (nev p : ℕ) (rgb : Bool) (gens : List (List (ℤ × List ℤ))) (G : List (Poly n)) : Prop :=
  ∃ (im : List (List (ℤ × List ℤ))) (ng : ℤ) (F0 F : List (Poly n)) (C : Cfg n) (s : F4.St n),
    importGens bad 0 gens = .ok im ng ∧ nev < n ∧
    List.Forall₂ (ImportPolyMo mo n nev p) im F0 ∧ F.Perm F0 ∧
    C.ord = ordKindMo mo nev ∧ C.p = p ∧ Sorts C ∧ Reach C F s ∧ done s ∧
    if rgb then Final C s G else ∃ L, finalLmps s = some L ∧ G = L.map fun k => s.els.getD k []

/-- A call of `export_f4` with the arrays `a` returns `ret` and the arrays `out`; `cfs'` is the content of `cfs` afterwards.  That the basis has
at most `2^31` elements (io.c 512-515) is assumed.  A failing step (`exit(1)`, undefined behaviour) is no execution. -/
def Call (n : ℕ) (mo : ℤ) (nev p : ℕ) (rgb : Bool) (a : Arrays) (cfs' : List ℤ) (out : Arrays) (ret : ℕ) : Prop :=
  ∃ gens, ∃ G : List (Poly n), readGens n a.exps a.cfs 0 a.lens = some gens ∧ Basis mo nev p rgb gens G ∧
    cfs' = cfsAfter p gens a.cfs ∧ out = exportArrays nev G ∧ ret = out.lens.sum

/-! ### Reading the arrays -/

/-- A generator as it is read. -/
def rawPoly (f : List (ℤ × (Fin n → ℕ))) : List (ℤ × List ℤ) := f.map fun t => (t.1, List.ofFn fun i => (t.2 i : ℤ))

theorem mapM_some {α β : Type*} (f : α → Option β) (g : α → β) : ∀ l : List α, (∀ x ∈ l, f x = some (g x)) → l.mapM f = some (l.map g) := by
  intro l
  induction l with
  | nil => intro _; rfl
  | cons a l ih =>
    intro h
    rw [List.mapM_cons, h a List.mem_cons_self, ih fun x hx => h x (List.mem_cons_of_mem _ hx)]
    rfl

theorem readTerm_at (E0 E1 C0 C1 : List ℤ) (off : ℕ) (hE : E0.length = n * off) (hC : C0.length = off) (t : ℤ × (Fin n → ℕ)) :
    readTerm n (E0 ++ ((List.ofFn fun i => (t.2 i : ℤ)) ++ E1)) (C0 ++ t.1 :: C1) off = some (t.1, List.ofFn fun i => (t.2 i : ℤ)) := by
  unfold readTerm
  rw [List.getElem?_append_right (by omega), hC, Nat.sub_self, List.getElem?_cons_zero]
  simp only [Option.bind_some]
  rw [mapM_some _ (fun i => (List.ofFn fun i => (t.2 i : ℤ)).getD i 0)]
  · simp only [Option.map_some, Option.some.injEq, Prod.mk.injEq, true_and]
    apply List.ext_getElem
    · simp
    · intro i h1 h2
      simp only [List.length_ofFn] at h2
      simp [List.getD_eq_getElem?_getD, h2]
  · intro i hi
    have hi := List.mem_range.mp hi
    rw [List.getElem?_append_right (by omega), hE, Nat.add_sub_cancel_left, List.getElem?_append_left (by simpa using hi)]
    simp [List.getD_eq_getElem?_getD, hi]

theorem readPoly_at (f : List (ℤ × (Fin n → ℕ))) : ∀ (E0 E1 C0 C1 : List ℤ) (off : ℕ), E0.length = n * off → C0.length = off →
    (List.range' off f.length).mapM (readTerm n (E0 ++ ((f.flatMap fun t => List.ofFn fun i => (t.2 i : ℤ)) ++ E1))
      (C0 ++ (f.map Prod.fst ++ C1))) = some (rawPoly f) := by
  induction f with
  | nil => intros; rfl
  | cons t f ih =>
    intro E0 E1 C0 C1 off hE hC
    rw [List.length_cons, List.range'_succ, List.mapM_cons]
    have h1 := readTerm_at E0 ((f.flatMap fun t => List.ofFn fun i => (t.2 i : ℤ)) ++ E1) C0 (f.map Prod.fst ++ C1) off hE hC t
    have h2 := ih (E0 ++ List.ofFn fun i => (t.2 i : ℤ)) E1 (C0 ++ [t.1]) C1 (off + 1) (by simp [hE]; ring) (by simp [hC])
    simp only [List.flatMap_cons, List.map_cons, List.append_assoc, List.cons_append, List.nil_append] at h1 h2 ⊢
    rw [h1, h2]
    rfl

theorem readGens_at (fs : List (List (ℤ × (Fin n → ℕ)))) : ∀ (E0 C0 : List ℤ) (off : ℕ), E0.length = n * off → C0.length = off →
    readGens n (E0 ++ (Arrays.of fs).exps) (C0 ++ (Arrays.of fs).cfs) off (Arrays.of fs).lens = some (fs.map rawPoly) := by
  induction fs with
  | nil => intros; rfl
  | cons f fs ih =>
    intro E0 C0 off hE hC
    have h1 := readPoly_at f E0 (Arrays.of fs).exps C0 (Arrays.of fs).cfs off hE hC
    have h2 := ih (E0 ++ f.flatMap fun t => List.ofFn fun i => (t.2 i : ℤ)) (C0 ++ f.map Prod.fst) (off + f.length)
      (by
        have : ∀ g : List (ℤ × (Fin n → ℕ)), (g.flatMap fun t => List.ofFn fun i => (t.2 i : ℤ)).length = n * g.length := by
          intro g
          induction g with
          | nil => rfl
          | cons a g ih => rw [List.flatMap_cons, List.length_append, ih, List.length_ofFn, List.length_cons]; ring
        rw [List.length_append, this, hE]; ring) (by simp [hC])
    simp only [Arrays.of, List.flatMap_cons, List.map_cons, List.append_assoc, readGens] at h1 h2 ⊢
    rw [h1]
    simp only [Option.bind_some]
    rw [h2]
    rfl

theorem readGens_of (fs : List (List (ℤ × (Fin n → ℕ)))) :
    readGens n (Arrays.of fs).exps (Arrays.of fs).cfs 0 (Arrays.of fs).lens = some (fs.map rawPoly) := by
  have := readGens_at fs [] [] 0 (by simp) rfl
  simpa using this

/-! ### Import -/

theorem gensCmpMo_eq {mo : ℤ} {nv nev : ℕ} (h : nev = 0 → mo ≠ 1) : gensCmpMo mo nv nev = gensCmp nv nev := by
  funext a b
  unfold gensCmpMo
  rw [if_neg]
  rintro ⟨h1, h2⟩
  exact h h1 h2

theorem ordKindMo_eq {mo : ℤ} {nev : ℕ} (h : nev = 0 → mo ≠ 1) : ordKindMo mo nev = ordKind nev := by
  unfold ordKindMo
  rw [if_neg]
  rintro ⟨h1, h2⟩
  exact h h1 h2

theorem importPolyMo_iff {mo : ℤ} {nv nev p : ℕ} (h : nev = 0 → mo ≠ 1) {f : List (ℤ × List ℤ)} {g : Poly nv} :
    ImportPolyMo mo nv nev p f g ↔ ImportPoly nv nev p f g := by
  have : ∀ l σ, SortPermMo mo nv nev l σ ↔ SortPerm nv nev l σ := by
    intro l σ
    constructor
    · rintro ⟨h1, h2, h3⟩
      rw [gensCmpMo_eq h] at h3
      exact ⟨h1, h2, h3⟩
    · rintro ⟨h1, h2, h3⟩
      refine ⟨h1, h2, ?_⟩
      rw [gensCmpMo_eq h]
      exact h3
  unfold ImportPolyMo ImportPoly
  simp only [this]

/-- The terms as they would be written with the coefficients reduced. -/
def asText (p : ℕ) (f : List (ℤ × (Fin n → ℕ))) : List Text.Mon :=
  f.map fun t => Parse.printMon (List.replicate n []) (t.1 % (p : ℤ)).toNat (List.ofFn t.2)

theorem asText_vec (p : ℕ) (t : ℤ × (Fin n → ℕ)) :
    (Parse.printMon (List.replicate n []) (t.1 % (p : ℤ)).toNat (List.ofFn t.2)).vec n = t.2 := by
  funext i
  unfold Text.Mon.vec
  rw [Parse.printMon_expo (by simp)]
  simp [List.getD_eq_getElem?_getD]

theorem asText_first {p : ℕ} (hp : 0 < p) (hp2 : p < 2 ^ 31) (f : List (ℤ × (Fin n → ℕ))) : ∀ t ∈ (asText p f).head?, Text.FirstNum t := by
  intro t ht
  have ht : t ∈ asText p f := List.mem_of_mem_head? ht
  obtain ⟨x, -, rfl⟩ := List.mem_map.mp ht
  intro a ha
  simp only [Parse.printMon, Option.some.injEq] at ha
  subst ha
  refine ⟨rfl, ?_, by simp [Parse.printMon]⟩
  simp only
  rw [(Parse.toDigits_digits _).2]
  have := Int.emod_lt_of_pos x.1 (show (0 : ℤ) < p by omega)
  omega

theorem asText_numer {p : ℕ} (hp : 0 < p) (t : ℤ × (Fin n → ℕ)) :
    (Parse.printMon (List.replicate n []) (t.1 % (p : ℤ)).toNat (List.ofFn t.2)).numer = t.1 % p := by
  rw [Parse.printMon_numer]
  have := Int.emod_nonneg t.1 (show (p : ℤ) ≠ 0 by omega)
  omega

theorem asText_poly {p : ℕ} (hp : 0 < p) (f : List (ℤ × (Fin n → ℕ))) : Text.poly p n (asText p f) = apoly p f := by
  unfold Text.poly apoly asText
  rw [List.map_map]
  congr 1
  apply List.map_congr_left
  intro t _
  simp only [Function.comp_apply, Text.Mon.poly]
  rw [asText_vec, asText_numer hp, ZMod.intCast_mod]

/-- The text gives the same imported terms. -/
theorem import_raw {nev p : ℕ} (hp : 0 < p) (hp2 : p < 2 ^ 31) {f : List (ℤ × (Fin n → ℕ))}
    (hr : ∀ t ∈ f, -(p : ℤ) ≤ t.1 ∧ t.1 < 2 ^ 31) :
    (rawPoly f).map (importTerm n nev p) = (ffPoly n p (asText p f)).map (importTerm n nev p) := by
  rw [import_terms hp hp2 (asText_first hp hp2 f)]
  unfold rawPoly asText
  rw [List.map_map, List.map_map]
  apply List.map_congr_left
  intro t ht
  have hw : p ≤ 2 ^ ffBits p := by
    obtain ⟨-, h⟩ := Props.C17_width_partial p hp hp2
    have := h (p - 1) (by omega)
    omega
  simp only [Function.comp_apply, importTerm, asText_vec]
  congr 1
  · have := importCoeff_spec (ffBits p) p t.1 hp hp2 hw (hr t ht).1 (hr t ht).2
    unfold redCoef
    rw [asText_numer hp, Int.emod_emod_of_dvd _ (dvd_refl _), ← this]
    simp
  · congr 1
    funext i
    unfold ext
    split_ifs with h
    · simp [List.getD_eq_getElem?_getD, h]
    · simp [List.getD_eq_getElem?_getD, h]

theorem importPoly_raw {nev p : ℕ} (hp : 0 < p) (hp2 : p < 2 ^ 31) {f : List (ℤ × (Fin n → ℕ))}
    (hr : ∀ t ∈ f, -(p : ℤ) ≤ t.1 ∧ t.1 < 2 ^ 31) {g : Poly n} :
    ImportPoly n nev p (rawPoly f) g ↔ ImportPoly n nev p (ffPoly n p (asText p f)) g := by
  have hl : (rawPoly f).length = (ffPoly n p (asText p f)).length := by
    have := congrArg List.length (import_raw (nev := nev) hp hp2 hr)
    simpa using this
  unfold ImportPoly
  rw [import_raw hp hp2 hr, hl]

end Verif.ExportF4
