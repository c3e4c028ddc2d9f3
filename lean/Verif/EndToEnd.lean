import Verif.Import
import Verif.ReadFile
import Verif.F4Final
import Verif.GroebnerUnique
import Verif.Props.Import
import Verif.Spec.Problem

/-! The path of `msolve -g 2` over a prime field from the input file to the printed basis: main.c 343-483, msolve.c 3527-4070
(no saturation, no normal form), `real_msolve_qq` 3307-3345, `msolve_trace_qq` 1897-2110, `initial_modular_step` 1545-1590,
`print_groebner_basis` 1500-1511.  The parts are the models of the other modules. -/

namespace Verif.EndToEnd

open Verif.Orders Verif.Import Verif.Normalize Verif.Parse Verif.F4 Verif.Spec

/-- The monomial order chosen by `set_function_pointers`, io.c 886-920, with `mon_order = 0` (msolve.c 1927). -/
def ordKind (nev : ℕ) : OKind := if nev = 0 then .drl else .be nev

/-- `initial_gens_cmp_be`, order.c 657-703. -/
def initialGensCmpBe (evl ebl : Nat) (ea eb : Nat → Nat) : Int :=
  if ea 0 < eb 0 then 1
  else if ea 0 ≠ eb 0 then -1
  else
    let i := scanDown ea eb 1 (ebl - 1)
    if (ea i : Int) - eb i ≠ 0 then (ea i : Int) - eb i
    else if ea ebl < eb ebl then 1
    else if ea ebl ≠ eb ebl then -1
    else
      let i := scanDown ea eb ebl (evl - 1)
      (ea i : Int) - eb i

/-- `initial_gens_cmp`, io.c 890-908. -/
def gensCmp (nv nev : ℕ) (ea eb : ℕ → ℕ) : ℤ :=
  if nev = 0 then initialGensCmpDrl (evl nv nev) ea eb else initialGensCmpBe (evl nv nev) (ebl nev) ea eb

/-- One term of `import_input_data`, io.c 308-311 and 318-371: coefficient and exponent vector.  The exponents in the input are
not negative (`store_exponent` reads digits). -/
def importTerm (nv nev p : ℕ) (t : ℤ × List ℤ) : ℕ × (ℕ → ℕ) :=
  (importCoeff (ffBits p) p t.1, setEv nv nev (fun i => (t.2.getD i 0).toNat) fun _ => 0)

/-- The monomial stored in an exponent vector. -/
def monOf (nv nev : ℕ) (ev : ℕ → ℕ) : Fin nv → ℕ := fun i => ev (if i.val < nev then i.val + 1 else i.val + off nev)

/-- `sort_r` returns a permutation of the indices for which the terms are in order; nothing is assumed about the order of equal
monomials. -/
structure SortPerm (nv nev : ℕ) (f : List (ℕ × (ℕ → ℕ))) (σ : ℕ → ℕ) : Prop where
  lt : ∀ m < f.length, σ m < f.length
  inj : ∀ a < f.length, ∀ b < f.length, σ a = σ b → a = b
  sorted : ∀ i j, i < j → j < f.length →
    gensCmp nv nev (f.getD (σ i) (0, fun _ => 0)).2 (f.getD (σ j) (0, fun _ => 0)).2 ≤ 0

/-- One generator: import of the terms, `sort_terms_ff_*` (io.c 318-371), `normalize_initial_basis` in msolve.c 1986 and
again in f4.c 372. -/
def ImportPoly (nv nev p : ℕ) (f : List (ℤ × List ℤ)) (g : Poly nv) : Prop :=
  ∃ σ cf cs cs', SortPerm nv nev (f.map (importTerm nv nev p)) σ ∧
    sortTerms f.length (fun i => (f.map (importTerm nv nev p)).getD i (0, fun _ => 0)) σ = some cf ∧
    normInit (2 * ffBits p) (ffBits p) p ((List.range f.length).map fun i => (cf i).1) = some cs ∧
    normInit (2 * ffBits p) (ffBits p) p cs = some cs' ∧
    g = ((List.range f.length).map fun i => monOf nv nev (cf i).2).zip cs'

/-- What is assumed of the sort functions of the pairs, and `mnsel`, io.c 862-866. -/
structure Sorts {n : ℕ} (C : Cfg n) : Prop where
  mnsel : 0 < C.mnsel
  upd : ∀ l, (C.srtUpd l).Perm l
  sel : ∀ l, (C.srtSel l).Perm l
  sorted : ∀ l, (C.srtSel l).Pairwise fun a b => ¬ C.ord.pairLt b a

/-- The comments before the basis, iofiles.c 174-207. -/
def header (names : List (List Char)) (p nev len : ℕ) : List Char :=
  "#Reduced Groebner basis data\n".toList ++ "#---\n".toList ++
  ("#field characteristic: ".toList ++ Nat.toDigits 10 p ++ ['\n']) ++
  ("#variable order:       ".toList ++ List.intercalate [',', ' '] names ++ ['\n']) ++
  (if nev = 0 then "#monomial order:       graded reverse lexicographical\n".toList
   else if nev = 1 then "#monomial order:       eliminating first variable, blocks: graded reverse lexicographical\n".toList
   else "#monomial order:       eliminating first ".toList ++ Nat.toDigits 10 nev ++
    " variables, blocks: graded reverse lexicographical\n".toList) ++
  (if len = 1 then "#length of basis:      1 element\n".toList
   else "#length of basis:      ".toList ++ Nat.toDigits 10 len ++ " elements sorted by increasing leading monomials\n".toList) ++
  "#---\n".toList

/-- A basis element in the basis and the hash table: coefficients and exponent vectors. -/
def stored {n : ℕ} (nev : ℕ) (f : Poly n) : List (ℕ × List ℕ) :=
  f.map fun t => (t.2, (List.range (evl n nev)).map (setEv n nev (ext t.1) fun _ => 0))

/-- `print_ff_basis_data` with `print_gb = 2`, iofiles.c 157-310, 339-360. -/
def printBasis (names : List (List Char)) (p nev : ℕ) (G : List (Poly names.length)) : List Char :=
  header names p nev G.length ++ printPolys names (ebl nev) (G.map (stored nev))

/-- `msolve -g 2 -e nev` on an input file over a prime field prints `out`.  The generators are read (C58), the valid ones are
imported (C15), sorted (`initial_input_cmp`; only a permutation is assumed), then F4 runs with the exact sparse linear algebra (`la_option`
2, the default; C44) and the basis is printed.  Monomials in F4 are vectors of natural numbers: overflow of the 16 bit exponents
during F4 is not modelled.  The elements of `G` are those of `bs->lmps`.  A failing step is no execution. -/
def Run (nev : ℕ) (input out : List Char) : Prop :=
  ∃ (names : List (List Char)) (p : ℕ) (ps im : List (List (ℤ × List ℤ))) (ng : ℤ) (F0 F : List (Poly names.length))
    (C : Cfg names.length) (s : F4.St names.length) (G : List (Poly names.length)),
    readFile input = some ⟨names, p, .ff ps⟩ ∧ nev < names.length ∧
    importGens (fun f => invalid (f.map Prod.fst)) 0 ps = .ok im ng ∧
    List.Forall₂ (ImportPoly names.length nev p) im F0 ∧ F.Perm F0 ∧
    C.ord = ordKind nev ∧ C.p = p ∧ Sorts C ∧ Reach C F s ∧ done s ∧ Final C s G ∧
    out = printBasis names p nev G

/-! ### The monomial orders -/

variable {n : ℕ}

theorem initialGensCmpBe_eq (e l : ℕ) (a b : ℕ → ℕ) : initialGensCmpBe e l a b = - cmpBe e l a b := by
  have hs : ∀ st top, scanDown a b st top = scanDown a b st top := fun _ _ => rfl
  unfold initialGensCmpBe cmpBe
  simp only
  split_ifs <;> omega

theorem gensCmp_spec {nev : ℕ} (hnev : nev < n) (u v : Fin n → ℕ) (hu : ∑ i, u i < 65536) (hv : ∑ i, v i < 65536)
    (bu bv : ℕ → ℕ) :
    let c := gensCmp n nev (setEv n nev (ext u) bu) (setEv n nev (ext v) bv)
    (c < 0 ↔ (ordKind nev).lt v u) ∧ (c = 0 ↔ u = v) := by
  intro c
  by_cases h : nev = 0
  · subst h
    obtain ⟨h1, h2, -⟩ := Props.C07_drl_comparison (by omega) u v bu bv hu hv
    have hc : c = - cmpDrl (evl n 0) (setEv n 0 (ext u) bu) (setEv n 0 (ext v) bv) := by
      simp only [c, gensCmp, if_true]
      exact initialGensCmpDrl_eq _ _ _
    rw [hc]
    exact ⟨by rw [neg_lt_zero]; exact h1, by rw [neg_eq_zero]; exact h2⟩
  · obtain ⟨h1, h2, -⟩ := Props.C08_be_comparison nev (by omega) (by omega) u v bu bv hu hv
    have hc : c = - cmpBe (evl n nev) (ebl nev) (setEv n nev (ext u) bu) (setEv n nev (ext v) bv) := by
      simp only [c, gensCmp, if_neg h]
      exact initialGensCmpBe_eq _ _ _ _
    rw [hc]
    have ho : (ordKind nev).lt (n := n) = Be nev := by unfold ordKind; rw [if_neg h]; rfl
    rw [ho]
    exact ⟨by rw [neg_lt_zero]; exact h1, by rw [neg_eq_zero]; exact h2⟩

/-! ### Import of a generator -/

theorem monOf_setEv {nev : ℕ} (hnev : nev < n) (u : Fin n → ℕ) (hu : ∑ i, u i < 65536) (b : ℕ → ℕ) :
    monOf n nev (setEv n nev (ext u) b) = u := by
  obtain ⟨h1, h2, -, -⟩ := setEv_spec n nev (by omega) (ext u) b
  funext i
  have hi : u i % 65536 = u i := Nat.mod_eq_of_lt (lt_of_le_of_lt (Orders.le_total' u i) hu)
  unfold monOf
  split_ifs with h
  · rw [h1 _ h, ext_val, hi]
  · rw [h2 _ (by omega) i.isLt, ext_val, hi]

open Verif.Spec.Text (Expanded)

theorem importTerm_row {nev p : ℕ} (c : ℤ) (t : Text.Mon) :
    importTerm n nev p (c, expoRow n t) = (importCoeff (ffBits p) p c, setEv n nev (ext (t.vec n)) fun _ => 0) := by
  have : (fun i => (((expoRow n t).getD i 0)).toNat) = ext (t.vec n) := by
    funext i
    unfold ext
    split_ifs with h
    · simp [expoRow, List.getD_eq_getElem?_getD, h, Text.Mon.vec]
    · simp [expoRow, List.getD_eq_getElem?_getD, h]
  simp only [importTerm, this]

/-- The coefficient of a term, reduced. -/
def redCoef (p : ℕ) (t : Text.Mon) : ℕ := (t.numer % p).toNat

/-- The terms imported. -/
theorem import_terms {nev p : ℕ} (hp : 0 < p) (hp2 : p < 2 ^ 31) {ts : List Text.Mon} (h0 : ∀ t ∈ ts.head?, Text.FirstNum t) :
    (ffPoly n p ts).map (importTerm n nev p) = ts.map fun t => (redCoef p t, setEv n nev (ext (t.vec n)) fun _ => 0) := by
  have hw : p ≤ 2 ^ ffBits p := by
    obtain ⟨-, h⟩ := Props.C17_width_partial p hp hp2
    have := h (p - 1) (by omega)
    omega
  have key : ∀ c : ℤ, ∀ t : Text.Mon, 0 ≤ c → c < 2 ^ 31 → c % p = t.numer % p → importCoeff (ffBits p) p c = redCoef p t := by
    intro c t h1 h2 h3
    have := importCoeff_spec (ffBits p) p c hp hp2 hw (by omega) h2
    unfold redCoef
    rw [← h3, ← this]
    simp
  cases ts with
  | nil => rfl
  | cons t ts =>
    simp only [ffPoly, List.map_cons, List.map_map, importTerm_row]
    congr 1
    · rw [key _ t]
      · unfold addUntil; split_ifs
        · exact Int.emod_nonneg _ (by omega)
        · omega
      · unfold addUntil; split_ifs with hneg
        · have := Int.emod_lt_of_pos t.numer (show (0 : ℤ) < p by omega)
          omega
        · have := h0 t (by simp)
          unfold Text.Mon.numer
          cases hn : t.num with
          | none => split_ifs <;> norm_num
          | some a =>
            have := (this a hn).2.1
            simp only
            split_ifs <;> omega
      · unfold addUntil; split_ifs
        · exact Int.emod_emod_of_dvd _ (dvd_refl _)
        · rfl
    · apply List.map_congr_left
      intro u _
      simp only [Function.comp_apply, importTerm_row]
      rw [key _ u]
      · exact Int.emod_nonneg _ (by omega)
      · have := Int.emod_lt_of_pos u.numer (show (0 : ℤ) < p by omega)
        omega
      · exact Int.emod_emod_of_dvd _ (dvd_refl _)

theorem ffBits_width {p : ℕ} (hp : p.Prime) (hp2 : p < 2 ^ 31) : p < 2 ^ (2 * ffBits p - 1) ∧ p ≤ 2 ^ ffBits p := by
  obtain ⟨h0, h⟩ := Props.C17_width_partial p hp.pos hp2
  have h1 := h (p - 1) (by have := hp.pos; omega)
  have h2 : ffBits p = 8 ∨ ffBits p = 16 ∨ ffBits p = 32 := by
    unfold ffBits at h0 ⊢
    simp only at h0 ⊢
    split_ifs at h0 ⊢ <;> simp_all
  rcases h2 with h2 | h2 | h2 <;> rw [h2] at h1 ⊢ <;> norm_num at h1 ⊢ <;> omega

theorem redCoef_lt {p : ℕ} (hp : 0 < p) (t : Text.Mon) : redCoef p t < p := by
  unfold redCoef
  have h1 := Int.emod_lt_of_pos t.numer (show (0 : ℤ) < p by omega)
  have h2 := Int.emod_nonneg t.numer (show (p : ℤ) ≠ 0 by omega)
  omega

theorem redCoef_cast {p : ℕ} (hp : 0 < p) (t : Text.Mon) : ((redCoef p t : ℕ) : ZMod p) = ((t.numer : ℤ) : ZMod p) := by
  have h2 := Int.emod_nonneg t.numer (show (p : ℤ) ≠ 0 by omega)
  have : ((redCoef p t : ℕ) : ℤ) = t.numer % p := by unfold redCoef; omega
  rw [← Int.cast_natCast, this, ZMod.intCast_mod]

/-- The terms in the order of the basis. -/
theorem sorted_terms {nev p : ℕ} {ts : List Text.Mon} {σ : ℕ → ℕ} {cf : ℕ → ℕ × (ℕ → ℕ)}
    (hσ : SortPerm n nev (ts.map fun t => (redCoef p t, setEv n nev (ext (t.vec n)) fun _ => 0)) σ)
    (hcf : sortTerms ts.length
      (fun i => (ts.map fun t => (redCoef p t, setEv n nev (ext (t.vec n)) fun _ => 0)).getD i (0, fun _ => 0)) σ = some cf) :
    ∃ ts' : List Text.Mon, ts'.Perm ts ∧
      (List.range ts.length).map cf = ts'.map (fun t => (redCoef p t, setEv n nev (ext (t.vec n)) fun _ => 0)) ∧
      ts'.Pairwise fun a b => gensCmp n nev (setEv n nev (ext (a.vec n)) fun _ => 0) (setEv n nev (ext (b.vec n)) fun _ => 0) ≤ 0 := by
  obtain ⟨h1, h2, h3⟩ := hσ
  simp only [List.length_map] at h1 h2 h3
  obtain ⟨cf', e, hs⟩ := sortTerms_spec _ _ σ h1 h2
  rw [hcf] at e
  obtain rfl := Option.some.inj e
  have hget : ∀ i < ts.length, (ts.map fun t => (redCoef p t, setEv n nev (ext (t.vec n)) fun _ => 0)).getD i (0, fun _ => 0) =
      (fun t : Text.Mon => (redCoef p t, setEv n nev (ext (t.vec n)) fun _ => 0)) (ts.getD i {}) := by
    intro i hi
    simp [List.getD_eq_getElem?_getD, hi]
  refine ⟨((List.range ts.length).map σ).map fun i => ts.getD i {}, ?_, ?_, ?_⟩
  · have hp : ((List.range ts.length).map σ).Perm (List.range ts.length) := by
      refine (List.subperm_of_subset ?_ ?_).perm_of_length_le (by simp)
      · exact List.Nodup.map_on (fun a ha b hb => h2 a (List.mem_range.mp ha) b (List.mem_range.mp hb)) List.nodup_range
      · intro x hx
        obtain ⟨m, hm, rfl⟩ := List.mem_map.mp hx
        exact List.mem_range.mpr (h1 m (List.mem_range.mp hm))
    have e : (List.range ts.length).map (fun i => ts.getD i {}) = ts := by
      apply List.ext_getElem
      · simp
      · intro i hi hi'
        simp [List.getD_eq_getElem?_getD, hi']
    have := hp.map fun i => ts.getD i ({} : Text.Mon)
    rwa [e] at this
  · rw [List.map_map, List.map_map]
    apply List.map_congr_left
    intro i hi
    have hi := List.mem_range.mp hi
    rw [hs i hi, hget _ (h1 i hi)]
    rfl
  · rw [List.map_map, List.pairwise_map]
    refine List.Pairwise.imp_of_mem ?_ (List.pairwise_lt_range (n := ts.length))
    intro i j hi hj hij
    have hi := List.mem_range.mp hi
    have hj := List.mem_range.mp hj
    have := h3 i j hij hj
    rw [hget _ (h1 i hi), hget _ (h1 j hj)] at this
    exact this

/-- What a generator becomes. -/
theorem importPoly_spec {nev p : ℕ} (hnev : nev < n) (hp : p.Prime) (hp2 : p < 2 ^ 31) {ts : List Text.Mon} (hne : ts ≠ [])
    (h0 : ∀ t ∈ ts.head?, Text.FirstNum t) (hE : Expanded p n ts) {g : Poly n} (h : ImportPoly n nev p (ffPoly n p ts) g) :
    PolyOk (ordKind nev) p g ∧ ∃ u : ZMod p, u ≠ 0 ∧ toMv p g = MvPolynomial.C u * Text.poly p n ts := by
  have hF : Fact p.Prime := ⟨hp⟩
  have hlen : (ffPoly n p ts).length = ts.length := by cases ts <;> simp [ffPoly]
  obtain ⟨σ, cf, cs, cs', hσ, hcf, hn1, hn2, rfl⟩ := h
  rw [import_terms hp.pos hp2 h0] at hσ hcf
  rw [hlen] at hcf hn1 ⊢
  obtain ⟨ts', hperm, hmap, hpw⟩ := sorted_terms hσ hcf
  have hc1 : (List.range ts.length).map (fun i => (cf i).1) = ts'.map (redCoef p) := by
    have := congrArg (List.map Prod.fst) hmap
    simpa [Function.comp_def] using this
  have hdeg : ∀ t ∈ ts', ∑ i, t.vec n i < 65536 := fun t ht => hE.deg t (hperm.mem_iff.mp ht)
  have hc2 : (List.range ts.length).map (fun i => monOf n nev (cf i).2) = ts'.map (Text.Mon.vec n) := by
    have := congrArg (List.map fun x => monOf n nev x.2) hmap
    simp only [List.map_map, Function.comp_def] at this
    rw [this]
    apply List.map_congr_left
    intro t ht
    exact monOf_setEv hnev _ (hdeg t ht) _
  rw [hc1] at hn1
  rw [hc2]
  have hpos : ∀ t ∈ ts', 0 < redCoef p t := by
    intro t ht
    have h1 := hE.coeff t (hperm.mem_iff.mp ht)
    have h2 := Int.emod_nonneg t.numer (show (p : ℤ) ≠ 0 by have := hp.pos; omega)
    have h3 : t.numer % p ≠ 0 := fun h => h1 (Int.dvd_of_emod_eq_zero h)
    unfold redCoef
    omega
  have hts' : ts' ≠ [] := by
    rintro rfl
    exact hne (List.nil_perm.mp hperm)
  obtain ⟨t0, r, rfl⟩ := List.exists_cons_of_ne_nil hts'
  obtain ⟨hw, ho⟩ := ffBits_width hp hp2
  have hsq : (p - 1) * (p - 1) < 2 ^ 63 :=
    lt_of_le_of_lt (Nat.mul_le_mul (show p - 1 ≤ 2 ^ 31 - 1 by omega) (show p - 1 ≤ 2 ^ 31 - 1 by omega)) (by norm_num)
  rw [List.map_cons] at hn1
  obtain ⟨inv, i1, i2, i3⟩ := normInit_spec (r := r.map (redCoef p)) hw ho hsq hp (hpos t0 List.mem_cons_self) (by
    rw [← List.map_cons]
    intro b hb
    obtain ⟨t, -, rfl⟩ := List.mem_map.mp hb
    exact redCoef_lt hp.pos t)
  rw [i3] at hn1
  obtain rfl := Option.some.inj hn1
  have hhead : redCoef p t0 * inv % p = 1 := by rw [Nat.mul_comm]; exact i2
  rw [List.map_cons, hhead] at hn2
  obtain ⟨inv', j1, j2, j3⟩ := normInit_spec (r := (r.map (redCoef p)).map fun b => b * inv % p) hw ho hsq hp Nat.one_pos (by
    intro b hb
    rcases List.mem_cons.mp hb with rfl | hb
    · exact hp.one_lt
    · obtain ⟨t, -, rfl⟩ := List.mem_map.mp hb
      exact Nat.mod_lt _ hp.pos)
  have hinv' : inv' = 1 := by
    rw [Nat.mul_one, Nat.mod_eq_of_lt j1] at j2
    exact j2
  subst hinv'
  rw [j3] at hn2
  obtain rfl := Option.some.inj hn2
  have hg : ((t0 :: r).map (Text.Mon.vec n)).zip ((1 :: (r.map (redCoef p)).map fun b => b * inv % p).map fun b => b * 1 % p) =
      (t0 :: r).map fun t => (t.vec n, redCoef p t * inv % p) := by
    have e : (1 :: (r.map (redCoef p)).map fun b => b * inv % p) = ((t0 :: r).map (redCoef p)).map fun b => b * inv % p := by
      simp [hhead]
    rw [e, List.map_map, List.map_map, List.zip_map']
    apply List.map_congr_left
    intro t _
    simp
  rw [hg]
  have hinv0 : ((inv : ℕ) : ZMod p) ≠ 0 := by
    intro h
    rw [ZMod.natCast_eq_zero_iff] at h
    have : p ∣ inv * redCoef p t0 := h.mul_right _
    rw [Nat.dvd_iff_mod_eq_zero, i2] at this
    omega
  refine ⟨⟨⟨r.map fun t => (t.vec n, redCoef p t * inv % p), ?_⟩, ?_, ?_⟩, ((inv : ℕ) : ZMod p), hinv0, ?_⟩
  · simp [lead, hhead]
  · rw [List.map_map]
    have hnd : ((t0 :: r).map (Text.Mon.vec n)).Nodup := (hperm.map _).nodup_iff.mpr hE.distinct
    have hcomp : (Prod.fst ∘ fun t : Text.Mon => (t.vec n, redCoef p t * inv % p)) = Text.Mon.vec n := rfl
    rw [hcomp, List.pairwise_map]
    rw [List.Nodup, List.pairwise_map] at hnd
    refine List.Pairwise.imp_of_mem ?_ (hpw.and hnd)
    rintro a b ha hb ⟨h1, h2⟩
    obtain ⟨k1, k2⟩ := gensCmp_spec hnev _ _ (hdeg a ha) (hdeg b hb) (fun _ => 0) fun _ => 0
    refine k1.mp (lt_of_le_of_ne h1 fun h => h2 (k2.mp h))
  · intro x hx
    obtain ⟨t, ht, rfl⟩ := List.mem_map.mp hx
    refine ⟨Nat.pos_of_ne_zero fun h => ?_, Nat.mod_lt _ hp.pos⟩
    have h := Nat.dvd_of_mod_eq_zero h
    rcases (Nat.Prime.dvd_mul hp).mp h with h | h
    · exact absurd (Nat.le_of_dvd (hpos t ht) h) (by have := redCoef_lt hp.pos t; omega)
    · exact hinv0 ((ZMod.natCast_eq_zero_iff _ _).mpr h)
  · have hs : Text.poly p n ts = ((t0 :: r).map (Text.Mon.poly p n)).sum := ((hperm.map _).sum_eq).symm
    rw [hs, ← List.sum_map_mul_left]
    unfold toMv
    rw [List.map_map]
    congr 1
    apply List.map_congr_left
    intro t _
    simp only [Function.comp_apply, Text.Mon.poly, MvPolynomial.C_mul_monomial, fs]
    rw [ZMod.natCast_mod, Nat.cast_mul, redCoef_cast hp.pos, mul_comm]

/-- The terms can be sorted, and every generator is imported. -/
theorem importPoly_exists {nev p : ℕ} (hnev : nev < n) (hp : p.Prime) (hp2 : p < 2 ^ 31) {ts : List Text.Mon} (hne : ts ≠ [])
    (h0 : ∀ t ∈ ts.head?, Text.FirstNum t) (hE : Expanded p n ts) : ∃ g, ImportPoly n nev p (ffPoly n p ts) g := by
  have hlen : (ffPoly n p ts).length = ts.length := by cases ts <;> simp [ffPoly]
  have hadm := (ordKind nev).adm (n := n)
  let v : ℕ → Fin n → ℕ := fun i => (ts.getD i {}).vec n
  let R : ℕ → ℕ → Prop := fun i j => ¬ (ordKind nev).lt (v i) (v j)
  have htot : Std.Total R := ⟨by
    intro a b
    by_contra hno
    simp only [R] at hno
    push Not at hno
    exact hadm.irrefl _ (hadm.trans _ _ _ hno.1 hno.2)⟩
  have htr : IsTrans ℕ R := ⟨by
    intro a b c hab hbc hac
    rcases hadm.total (v a) (v b) with h | h | h
    · exact hab h
    · exact hbc (h ▸ hac)
    · exact hbc (hadm.trans _ _ _ h hac)⟩
  let l := @List.insertionSort _ R (Classical.decRel _) (List.range ts.length)
  have hl : l.Perm (List.range ts.length) := @List.perm_insertionSort _ R (Classical.decRel _) _
  have hlp : l.Pairwise R := @List.pairwise_insertionSort _ R (Classical.decRel _) htot htr _
  have hll : l.length = ts.length := by rw [hl.length_eq, List.length_range]
  have hgl : ∀ m (hm : m < ts.length), l.getD m 0 = l[m]'(by omega) := by
    intro m hm
    simp [List.getD_eq_getElem?_getD, hll, hm]
  have hlt : ∀ m < ts.length, l.getD m 0 < ts.length := by
    intro m hm
    rw [hgl m hm]
    exact List.mem_range.mp (hl.mem_iff.mp (List.getElem_mem _))
  have hσ : SortPerm n nev (ts.map fun t => (redCoef p t, setEv n nev (ext (t.vec n)) fun _ => 0)) fun m => l.getD m 0 := by
    refine ⟨?_, ?_, ?_⟩
    · simpa using hlt
    · simp only [List.length_map]
      intro a ha b hb hab
      rw [hgl a ha, hgl b hb] at hab
      exact (List.Nodup.getElem_inj_iff (hl.nodup_iff.mpr List.nodup_range)).mp hab
    · simp only [List.length_map]
      intro i j hij hj
      have hi := hij.trans hj
      have hget : ∀ i < ts.length, (ts.map fun t => (redCoef p t, setEv n nev (ext (t.vec n)) fun _ => 0)).getD i (0, fun _ => 0) =
          (redCoef p (ts.getD i {}), setEv n nev (ext (v i)) fun _ => 0) := by
        intro i hi
        simp [List.getD_eq_getElem?_getD, hi, v]
      have hvd : ∀ i < ts.length, ∑ k, v i k < 65536 := by
        intro i hi
        apply hE.deg
        rw [List.getD_eq_getElem _ _ hi]
        exact List.getElem_mem _
      rw [hget _ (hlt i hi), hget _ (hlt j hj)]
      obtain ⟨k1, k2⟩ := gensCmp_spec hnev _ _ (hvd _ (hlt i hi)) (hvd _ (hlt j hj)) (fun _ => 0) fun _ => 0
      have hR : R (l.getD i 0) (l.getD j 0) := by
        rw [hgl i hi, hgl j hj]
        exact List.pairwise_iff_getElem.mp hlp i j _ _ hij
      rcases hadm.total (v (l.getD i 0)) (v (l.getD j 0)) with h | h | h
      · exact absurd h hR
      · exact (k2.mpr h).le
      · exact (k1.mpr h).le
  obtain ⟨cf, hcf, -⟩ := sortTerms_spec ts.length
    (fun i => (ts.map fun t => (redCoef p t, setEv n nev (ext (t.vec n)) fun _ => 0)).getD i (0, fun _ => 0)) (fun m => l.getD m 0)
    (by simpa using hσ.lt) (by simpa using hσ.inj)
  obtain ⟨ts', hperm, hmap, -⟩ := sorted_terms hσ hcf
  have hc1 : (List.range ts.length).map (fun i => (cf i).1) = ts'.map (redCoef p) := by
    have := congrArg (List.map Prod.fst) hmap
    simpa [Function.comp_def] using this
  have hts' : ts' ≠ [] := by
    rintro rfl
    exact hne (List.nil_perm.mp hperm)
  obtain ⟨t0, r, rfl⟩ := List.exists_cons_of_ne_nil hts'
  have hpos : 0 < redCoef p t0 := by
    have h1 := hE.coeff t0 (hperm.mem_iff.mp List.mem_cons_self)
    have h2 := Int.emod_nonneg t0.numer (show (p : ℤ) ≠ 0 by have := hp.pos; omega)
    have h3 : t0.numer % p ≠ 0 := fun h => h1 (Int.dvd_of_emod_eq_zero h)
    unfold redCoef
    omega
  obtain ⟨hw, ho⟩ := ffBits_width hp hp2
  have hsq : (p - 1) * (p - 1) < 2 ^ 63 :=
    lt_of_le_of_lt (Nat.mul_le_mul (show p - 1 ≤ 2 ^ 31 - 1 by omega) (show p - 1 ≤ 2 ^ 31 - 1 by omega)) (by norm_num)
  obtain ⟨inv, i1, i2, i3⟩ := normInit_spec (r := r.map (redCoef p)) hw ho hsq hp hpos (by
    rw [← List.map_cons]
    intro b hb
    obtain ⟨t, -, rfl⟩ := List.mem_map.mp hb
    exact redCoef_lt hp.pos t)
  obtain ⟨inv', j1, j2, j3⟩ := normInit_spec (r := (r.map (redCoef p)).map fun b => b * inv % p) hw ho hsq hp
    (a := redCoef p t0 * inv % p) (by rw [Nat.mul_comm, i2]; exact Nat.one_pos) (by
    intro b hb
    rcases List.mem_cons.mp hb with rfl | hb
    · exact Nat.mod_lt _ hp.pos
    · obtain ⟨t, -, rfl⟩ := List.mem_map.mp hb
      exact Nat.mod_lt _ hp.pos)
  have e1 := i3
  rw [← List.map_cons (f := redCoef p), ← hc1, ← hlen] at e1
  exact ⟨_, fun m => l.getD m 0, cf, _, _, by rw [import_terms hp.pos hp2 h0]; exact hσ,
    by rw [import_terms hp.pos hp2 h0, hlen]; exact hcf, e1, by rw [hlen, hc1]; exact j3, rfl⟩

end Verif.EndToEnd
