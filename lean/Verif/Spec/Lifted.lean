import Verif.Spec.Solutions
import Verif.Spec.GoodPrime

/-!
Specification: a printed parametrization over the rationals.
-/
namespace Verif.Spec.Solutions

open Polynomial
open Verif.Spec.Text (scaled)

/-- The point with coordinates `z` (in the order of `names`) is one of the points described by the parametrization: the value of the last of the variables `pnames`
is a root of `elim`, variable `k` is `-coords_k / (cf_k * denom)` there, where `coords` is the list of the pairs `(coords_k, cf_k)`. -/
def DescribedQ {L : Type*} [Field L] (names pnames : List (List Char)) (elim denom : List ℤ) (coords : List (List ℤ × ℤ)) (z : Fin names.length → L) : Prop :=
  ∃ x : ℕ → L, value elim (x (pnames.length - 1)) = 0 ∧ value denom (x (pnames.length - 1)) ≠ 0 ∧
    (∀ k, k < pnames.length - 1 → x k = - value (coords.getD k ([], 1)).1 (x (pnames.length - 1)) /
      ((coords.getD k ([], 1)).2 * value denom (x (pnames.length - 1)))) ∧
    ∀ i, ∃ k, pnames[k]? = some names[i] ∧ z i = x k

/-- Zero if and only if the coefficient number `i` of `elim`, divided by the leading one, is that of the monic polynomial `w`. -/
noncomputable def elimErr (w : ℚ[X]) (elim : List ℤ) (i : ℕ) : ℤ := elim.getD i 0 * (w.coeff i).den - elim.getD w.natDegree 0 * (w.coeff i).num

/-- Zero if and only if the coefficient number `j` of the coordinate `q.1` with the factor `q.2` is that of the scaled coordinate `c * w' / deg w`, multiplied with `q.2`,
the degree of `w` and the leading coefficient of `elim`. -/
noncomputable def coordErr (w c : ℚ[X]) (elim : List ℤ) (q : List ℤ × ℤ) (j : ℕ) : ℤ :=
  q.1.getD j 0 * ((scaled w c).coeff j).den - elim.getD w.natDegree 0 * q.2 * w.natDegree * ((scaled w c).coeff j).num

/-- The printed lists are obtained by lifting from the parametrization with the eliminating polynomial `w` and the coordinates `c k`, `k < nc`, modulo primes from `ps`. -/
structure LiftOf (ps : List ℕ) (w : ℚ[X]) (c : ℕ → ℚ[X]) (nc : ℕ) (elim denom : List ℤ) (coords : List (List ℤ × ℤ)) : Prop where
  length : elim.length = w.natDegree + 1
  lead : elim.getD w.natDegree 0 ≠ 0
  dlen : denom.length = w.natDegree
  den : ∀ i, i < w.natDegree → denom.getD i 0 = elim.getD (i + 1) 0 * (i + 1)
  clen : coords.length = nc
  pos : ∀ q ∈ coords, q.1.length = w.natDegree ∧ 0 < q.2
  /-- The images modulo the primes `U`, and modulo a further prime `q`. -/
  images : ∃ U : List ℕ, U ≠ [] ∧ U.Nodup ∧ (∀ p ∈ U, p ∈ ps ∧ p.Prime) ∧
    (∀ p ∈ U, (∀ i, i ≤ w.natDegree → (p : ℤ) ∣ elimErr w elim i) ∧
      ∀ k, k < nc → ∀ j, j < w.natDegree → (p : ℤ) ∣ coordErr w (c k) elim (coords.getD k ([], 1)) j) ∧
    (∃ q ∈ ps, q ∉ U ∧ q.Prime ∧ ¬ (q : ℤ) ∣ elim.getD w.natDegree 0 ∧ (∀ i, i ≤ w.natDegree → (q : ℤ) ∣ elimErr w elim i) ∧
      ∀ k, k < nc → ¬ (q : ℤ) ∣ (coords.getD k ([], 1)).2 → ∀ j, j ≤ (scaled w (c k)).natDegree → scaled w (c k) ≠ 0 →
        (q : ℤ) ∣ coordErr w (c k) elim (coords.getD k ([], 1)) j) ∧
    /- Small differences vanish. -/
    (∀ i, i ≤ w.natDegree → |elimErr w elim i| < U.prod → elimErr w elim i = 0) ∧
    ∀ k, k < nc → ∀ j, j < w.natDegree → |coordErr w (c k) elim (coords.getD k ([], 1)) j| < U.prod →
      coordErr w (c k) elim (coords.getD k ([], 1)) j = 0

end Verif.Spec.Solutions
