import Verif.SolveQ
import Verif.ShapeQ
import Verif.Props.ParamLift
import Verif.Spec.GoodPrime

/-! The images modulo good primes of a parametrization over the rationals. -/
namespace Verif.SolveQ

open Polynomial Verif.Spec Verif.ShapeQ Verif.ParamLift
open Verif.Spec.Text (scaled GoodPrime)
open Verif.Props.ParamLift65 (coordCoeff)

/-- `g` is the image of the parametrization with the eliminating polynomial `w` and the coordinates `c k`, `k < nc`. -/
structure ImgRed (w : ℚ[X]) (c : ℕ → ℚ[X]) (nc : ℕ) (g : Img) : Prop where
  prime : g.p.Prime
  lt : g.p < 2 ^ 31
  elen : g.elen = w.natDegree + 1
  monic : g.e w.natDegree = 1
  elt : ∀ i, i ≤ w.natDegree → g.e i < g.p
  e : ∀ i, i ≤ w.natDegree → ((w.coeff i).den : ℤ) * g.e i ≡ (w.coeff i).num [ZMOD g.p]
  clen : open Classical in g.clen = fun k => if k < nc ∧ scaled w (c k) ≠ 0 then (scaled w (c k)).natDegree + 1 else 0
  cle : ∀ k, g.clen k ≤ w.natDegree
  clt : ∀ k j, j < g.clen k → g.c k j < g.p
  c : ∀ k, k < nc → ∀ j, (((scaled w (c k)).coeff j).den : ℤ) * coordCoeff g k j ≡ ((scaled w (c k)).coeff j).num [ZMOD g.p]

theorem cast_rat {p : ℕ} [hp : Fact p.Prime] {q : ℚ} {a : ZMod p} (hd : ¬ p ∣ q.den) (h : a = (q : ZMod p)) :
    (q.den : ℤ) * (a.val : ℤ) ≡ q.num [ZMOD p] := by
  rw [← ZMod.intCast_eq_intCast_iff]
  push_cast
  rw [ZMod.natCast_zmod_val, h, Rat.cast_def]
  refine mul_div_cancel₀ _ ?_
  rwa [Ne, ZMod.natCast_eq_zero_iff]

theorem coords_norm {p : ℕ} [hp : Fact p.Prime] (hlt : p < 2 ^ 32) {w : (ZMod p)[X]} (hlen : Lift.len w < 2 ^ 32) (cs : ℕ → (ZMod p)[X]) (nv k : ℕ) :
    ((Lift.normalize p ⟨w, 1, (List.range (nv - 1)).map cs⟩).coords).getD k 0 = if k < nv - 1 then normCoord w (cs k) else 0 := by
  have h := Lift.normalize_denom hlt ⟨w, 1, (List.range (nv - 1)).map cs⟩ hlen
  have h1 : (Lift.normalize p ⟨w, 1, (List.range (nv - 1)).map cs⟩).coords =
      ((List.range (nv - 1)).map cs).map fun c => c * (Lift.normalize p ⟨w, 1, (List.range (nv - 1)).map cs⟩).denom % w := rfl
  rw [h1, h]
  split_ifs with hk
  · simp [List.getD_eq_getElem?_getD, hk, normCoord]
  · simp [List.getD_eq_getElem?_getD, hk]

/-- The length of the array of a polynomial and of its image. -/
theorem red_len {p : ℕ} [hp : Fact p.Prime] {f : ℚ[X]} {g : (ZMod p)[X]} (h : RedPoly p f g) (hl : f ≠ 0 → ¬ (p : ℤ) ∣ f.leadingCoeff.num) :
    Lift.len g = open Classical in if f ≠ 0 then f.natDegree + 1 else 0 := by
  by_cases h0 : f = 0
  · have : g = 0 := by
      ext i
      rw [(h i).2, h0]
      simp
    rw [if_neg (by simpa using h0), this, Lift.len_zero]
  · rw [if_pos h0]
    have h1 : g.coeff f.natDegree ≠ 0 := by
      rw [(h _).2, Polynomial.coeff_natDegree, Rat.cast_def]
      refine div_ne_zero ?_ ?_
      · rw [Ne, ZMod.intCast_zmod_eq_zero_iff_dvd]
        exact hl h0
      · rw [Ne, ZMod.natCast_eq_zero_iff]
        have := (h f.natDegree).1
        rwa [Polynomial.coeff_natDegree] at this
    have h2 : g.natDegree = f.natDegree := by
      apply le_antisymm
      · rw [Polynomial.natDegree_le_iff_coeff_eq_zero]
        intro i hi
        rw [(h i).2, Polynomial.coeff_eq_zero_of_natDegree_lt hi, Rat.cast_zero]
      · exact Polynomial.le_natDegree_of_ne_zero h1
    rw [Lift.len_eq (fun h => h1 (by rw [h, coeff_zero])), h2]

theorem last_ne {n : ℕ} {last k : Fin n} (hlast : last.val = n - 1) : k < last ↔ k ≠ last := by
  have := k.2
  rw [Fin.lt_def, ne_eq, Fin.ext_iff]
  omega

/-- The image computed modulo a good prime. -/
theorem img_red {n p : ℕ} [hp : Fact p.Prime] (hlt : p < 2 ^ 31) {m : MonomialOrder (Fin n)} {IQ : Ideal (MvPolynomial (Fin n) ℚ)}
    {GQ : Set (MvPolynomial (Fin n) ℚ)} {Ip : Ideal (MvPolynomial (Fin n) (ZMod p))} (hG : IsReducedGroebner m IQ GQ) (hint : ∀ g ∈ GQ, IntegralAt p g)
    (hGp : IsReducedGroebner m Ip (reduceMod p '' GQ)) {last : Fin n} (hlast : last.val = n - 1) {w' : (ZMod p)[X]} {cs : ℕ → (ZMod p)[X]} (hw' : w'.Monic)
    (hsq : Squarefree w')
    (hI : Ip = Ideal.span ({aeval (MvPolynomial.X last) w'} ∪ { g | ∃ k : Fin n, k < last ∧ g = MvPolynomial.X k + aeval (MvPolynomial.X last) (cs k) }))
    {w : ℚ[X]} {c : Fin n → ℚ[X]} (hS : Shape IQ last w c) (hsmall : w.natDegree + 1 < 2 ^ 32) (hd : ¬ p ∣ w.natDegree)
    (hc : ∀ k, k ≠ last → scaled w (c k) ≠ 0 → ¬ (p : ℤ) ∣ (scaled w (c k)).leadingCoeff.num) {g : Img} (hg : IsImg p w' cs n g) :
    w.Separable ∧ ImgRed w (fun k => if hk : k < n then c ⟨k, hk⟩ else 0) (n - 1) g := by
  simp only [last_ne hlast] at hI
  have hdeg : w'.natDegree = w.natDegree := by
    obtain ⟨W, Cs, h1, h2, -, h4⟩ := shape_lift p hG hint hGp (shape_of_span hw' hI)
    rw [hS.unique h4 |>.1, ← h2, h1.natDegree_map, h1.natDegree_map]
  obtain ⟨w2, c2, h1, h2, h3, h4, h5⟩ := shape_image p (c' := fun k => cs k) hG hint hGp hw' hsq hI (by rwa [hdeg])
  obtain ⟨rfl, huc⟩ := hS.unique h1
  have hlen : Lift.len w' = w.natDegree + 1 := by rw [Lift.len_eq hw'.ne_zero, hdeg]
  obtain ⟨e1, e2, e3, e4, e5⟩ := hg
  have hN := coords_norm (p := p) (by omega) (w := w') (by rw [hlen]; exact hsmall) cs n
  simp only [hN] at e4 e5
  subst e1
  have hred : ∀ k, (hk : k < n - 1) → RedPoly g.p (scaled w (if hk : k < n then c ⟨k, hk⟩ else 0)) (normCoord w' (cs k)) := by
    intro k hk
    have hkl : (⟨k, by omega⟩ : Fin n) ≠ last := by
      rw [ne_eq, Fin.ext_iff]
      simp only
      omega
    have := h5 ⟨k, by omega⟩ hkl
    rw [dif_pos (by omega), huc _ hkl]
    exact this
  refine ⟨h2, hp.out, hlt, by rw [e2, hlen], ?_, ?_, ?_, ?_, ?_, ?_, ?_⟩
  · rw [e3 _ (by rw [e2, hlen]; omega), ← hdeg, hw'.coeff_natDegree, ZMod.val_one_eq_one_mod, Nat.mod_eq_of_lt hp.out.one_lt]
  · intro i hi
    rw [e3 _ (by rw [e2, hlen]; omega)]
    exact ZMod.val_lt _
  · intro i hi
    rw [e3 _ (by rw [e2, hlen]; omega)]
    exact cast_rat (h4 i).1 (h4 i).2
  · funext k
    rw [e4 k]
    by_cases hk : k < n - 1
    · have hkl : (⟨k, by omega⟩ : Fin n) ≠ last := by
        rw [ne_eq, Fin.ext_iff]
        simp only
        omega
      rw [if_pos hk, red_len (hred k hk)]
      · simp only [hk, true_and]
      · simp only [dif_pos (show k < n by omega)]
        exact hc _ hkl
    · rw [if_neg hk, Lift.len_zero, if_neg (by tauto)]
  · intro k
    rw [e4 k]
    split_ifs with hk
    · by_cases h0 : normCoord w' (cs k) = 0
      · rw [h0, Lift.len_zero]
        omega
      · rw [Lift.len_eq h0, ← hdeg]
        have : (normCoord w' (cs k)).degree < w'.degree := Polynomial.degree_mod_lt _ hw'.ne_zero
        exact Nat.succ_le_of_lt (Polynomial.natDegree_lt_natDegree h0 this)
    · rw [Lift.len_zero]
      omega
  · intro k j hj
    rw [e5 k j hj]
    exact ZMod.val_lt _
  · intro k hk j
    have h6 := hred k hk j
    unfold coordCoeff
    have h7 : (if j < g.clen k then ((g.c k j : ℕ) : ℤ) else 0) = (((normCoord w' (cs k)).coeff j).val : ℤ) := by
      split_ifs with hj
      · rw [e5 k j hj, if_pos hk]
      · have := e4 k
        rw [if_pos hk] at this
        rw [Lift.coeff_len (by omega), ZMod.val_zero]
        rfl
    rw [h7]
    exact cast_rat h6.1 h6.2

end Verif.SolveQ
