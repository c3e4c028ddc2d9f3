import Verif.ParamLift
import Verif.Props.Lift

/-! C65: the parametrization over the rationals returned by the multi-modular loop. -/
namespace Verif.Props
open Verif.ParamLift Verif.Lift Verif.CRT

namespace ParamLift65

/-- The coefficient `j` of the coordinate `i` of an image. -/
def coordCoeff (g : Img) (i j : ℕ) : ℤ := if j < g.clen i then g.c i j else 0

/-- The returned parametrization has the image `g`: `elim` is a multiple of the monic eliminating polynomial, a coordinate with
its factor `cfs[i]` is the multiple by `lc(elim) * nsols * cfs[i]`. -/
structure Reduces (c : Cfg) (m : PSt) (g : Img) : Prop where
  elim : ∀ i ≤ c.nsols, m.E i ≡ m.E c.nsols * g.e i [ZMOD g.p]
  coord : ∀ i < c.nc, ∀ j < c.nsols, m.C i j ≡ m.E c.nsols * m.cf i * c.nsols * coordCoeff g i j [ZMOD g.p]

/-- What the modular steps deliver (`p0` for the first prime). -/
structure Input (c : Cfg) (g0 : Img) (rounds : List (Bool × List (ℕ × Option Img))) : Prop where
  inv : InvSpec c.inv
  first : GoodImg c g0
  firstE : ∀ i ≤ c.nsols, g0.e i < g0.p
  firstC : ∀ i < c.nc, ∀ j < g0.clen i, g0.c i j < g0.p
  threads : ∀ r ∈ rounds, ∀ t ∈ r.2, GoodThread c t
  entries : ∀ r ∈ rounds, ∀ t ∈ r.2, ∀ g, t.2 = some g → g.p < 2 ^ 32 ∧ (∀ i ≤ c.nsols, g.e i < g.p) ∧
    ∀ i < c.nc, ∀ j < g.clen i, g.c i j < g.p
  distinct : (g0.p :: (rounds.flatMap Prod.snd).map Prod.fst).Nodup

/-- All the images that take part. -/
def Given (g0 : Img) (rounds : List (Bool × List (ℕ × Option Img))) (g : Img) : Prop :=
  g = g0 ∨ (g.p, some g) ∈ rounds.flatMap Prod.snd

end ParamLift65
open ParamLift65

/-- C65: when the loop ends, the eliminating polynomial agrees with the images modulo the first primes used, up to the one
where it was lifted; every coordinate agrees with the images modulo at least these primes, in the coefficients that the
image at its lifting has. -/
theorem C65_congruent (c : Cfg) (g0 : Img) (rounds : List (Bool × List (ℕ × Option Img))) (hi : Input c g0 rounds)
    (s : St (Option PSt)) (h : run c g0 rounds = .done s) :
    ∃ m, s.m = some m ∧ ∃ hist : List Img, s.used = (hist.map Img.p).reverse ∧
      (∃ l, hist = g0 :: l ∧ (l.map fun g => (g.p, some g)).Sublist (rounds.flatMap Prod.snd)) ∧
      ∃ k, 0 < k ∧ k ≤ hist.length ∧ (∀ g ∈ hist.take k, ∀ i ≤ c.nsols, m.E i ≡ m.E c.nsols * g.e i [ZMOD g.p]) ∧
        ∀ i < c.nc, 0 < m.cf i ∧ ∃ k' gl, k ≤ k' ∧ hist[k' - 1]? = some gl ∧
          ∀ g ∈ hist.take k', ∀ j < gl.clen i, j < g.clen i → m.C i j ≡ m.E c.nsols * m.cf i * c.nsols * g.c i j [ZMOD g.p] := by
  obtain ⟨n, hist, h1, h2⟩ := lift_run hi.inv (g0 := g0) rounds (s := start (some (init c g0)) g0.p) (ts := []) (hist := [g0])
    ⟨rfl, ⟨[], rfl, by simp⟩, fun m hm => by
      simp only [start, Option.some.injEq] at hm
      subst hm
      exact init_inv hi.first hi.firstE hi.firstC, fun _ _ hr => by simp [start] at hr, fun _ => rfl⟩
    hi.threads (by simpa using hi.distinct) h
  obtain ⟨q, g, _, hq, _⟩ := C56_confirmed _ _ _ _ _ _ _ h
  cases hm : s.m with
  | none => rw [hm] at hq; simp [chk] at hq
  | some m =>
    obtain ⟨l, hl, hs⟩ := h1.head
    have i1 := h1.inv m hm
    have a1 := h1.all m hm h2
    obtain ⟨k, k0, k1, k2, k3⟩ := i1.lift
    refine ⟨m, rfl, hist, h1.used, ⟨l, hl, hs.trans ?_⟩, k, k0, k1, k2 (a1 0 (by omega)), fun i hi => ?_⟩
    · rw [List.nil_append]
      conv_rhs => rw [← List.take_append_drop n rounds, List.flatMap_append]
      exact List.sublist_append_left _ _
    · exact (k3 i hi (a1 (i + 1) (by omega))).2

/-- C65: if the lengths of the coordinates are the same for all primes (msolve.c 986 assumes it) the returned parametrization
has the images computed for the first primes. -/
theorem C65_reduces (c : Cfg) (g0 : Img) (rounds : List (Bool × List (ℕ × Option Img))) (hi : Input c g0 rounds)
    (len : ℕ → ℕ) (hlen0 : g0.clen = len) (hlen : ∀ r ∈ rounds, ∀ t ∈ r.2, ∀ g, t.2 = some g → g.clen = len)
    (s : St (Option PSt)) (h : run c g0 rounds = .done s) :
    ∃ m, s.m = some m ∧ (∀ i < c.nc, 0 < m.cf i) ∧ ∃ U : List Img, g0 ∈ U ∧ (U.map Img.p).Nodup ∧
      (∀ g ∈ U, Given g0 rounds g ∧ g.p ∈ s.used) ∧ ∀ g ∈ U, Reduces c m g := by
  obtain ⟨n, hist, h1, h2⟩ := lift_run hi.inv (g0 := g0) rounds (s := start (some (init c g0)) g0.p) (ts := []) (hist := [g0])
    ⟨rfl, ⟨[], rfl, by simp⟩, fun m hm => by
      simp only [start, Option.some.injEq] at hm
      subst hm
      exact init_inv hi.first hi.firstE hi.firstC, fun _ _ hr => by simp [start] at hr, fun _ => rfl⟩
    hi.threads (by simpa using hi.distinct) h
  obtain ⟨q, g, _, hq, _⟩ := C56_confirmed _ _ _ _ _ _ _ h
  cases hm : s.m with
  | none => rw [hm] at hq; simp [chk] at hq
  | some m =>
    obtain ⟨l, hl, hs⟩ := h1.head
    have i1 := h1.inv m hm
    have a1 := h1.all m hm h2
    obtain ⟨k, k0, k1, k2, k3⟩ := i1.lift
    have hsub : (l.map fun g => (g.p, some g)).Sublist (rounds.flatMap Prod.snd) := by
      refine hs.trans ?_
      rw [List.nil_append]
      conv_rhs => rw [← List.take_append_drop n rounds, List.flatMap_append]
      exact List.sublist_append_left _ _
    have hall : ∀ g ∈ hist, g.clen = len := by
      intro g hg
      rw [hl] at hg
      rcases List.mem_cons.mp hg with rfl | hg
      · exact hlen0
      · have h3 := hs.subset (List.mem_map_of_mem (f := fun g : Img => (g.p, some g)) hg)
        rw [List.nil_append, List.mem_flatMap] at h3
        obtain ⟨r, hr, ht⟩ := h3
        exact hlen r (List.mem_of_mem_take hr) _ ht g rfl
    refine ⟨m, rfl, fun i hi => (k3 i hi (a1 (i + 1) (by omega))).2.1, hist.take k, ?_, ?_, fun g hg => ⟨?_, ?_⟩, fun g hg => ⟨k2 (a1 0 (by omega)) g hg, fun i hi j hj => ?_⟩⟩
    · rw [hl]
      obtain ⟨k, rfl⟩ : ∃ k', k = k' + 1 := ⟨k - 1, by omega⟩
      simp
    · refine List.Nodup.sublist ((List.take_sublist _ _).map _) ?_
      rw [hl]
      refine List.Nodup.sublist ?_ hi.distinct
      rw [List.map_cons]
      refine List.Sublist.cons_cons _ ?_
      simpa [Function.comp_def] using hsub.map Prod.fst
    · have hg := List.mem_of_mem_take hg
      rw [hl] at hg
      rcases List.mem_cons.mp hg with rfl | hg
      · exact .inl rfl
      · exact .inr (hsub.subset (List.mem_map_of_mem (f := fun g : Img => (g.p, some g)) hg))
    · rw [h1.used, List.mem_reverse]
      exact List.mem_map_of_mem (List.mem_of_mem_take hg)
    · obtain ⟨_, _, k', gl, l2, l3, l4⟩ := k3 i hi (a1 (i + 1) (by omega))
      have hgl := hall gl (List.mem_of_getElem? l3)
      have hgg := hall g (List.mem_of_mem_take hg)
      unfold coordCoeff
      split_ifs with hjl
      · exact l4 g ((List.take_sublist_take_left l2).subset hg) j (by rw [hgl, ← hgg]; exact hjl) hjl
      · rw [i1.zero i hi j fun g' hg' => by rw [hall g' hg', ← hgg]; omega, mul_zero]

namespace ParamLift65

theorem find?_congr {α : Type*} {l : List α} {f g : α → Bool} (h : ∀ a ∈ l, f a = g a) : l.find? f = l.find? g := by
  induction l with
  | nil => rfl
  | cons a l ih =>
    rw [List.find?_cons, List.find?_cons, h a List.mem_cons_self, ih fun x hx => h x (List.mem_cons_of_mem _ hx)]

theorem checkUnit_congr {len : ℕ} {f : ℕ → ℤ} {g g' : ℕ → ℕ} {p : ℕ} (h : ∀ i < len, g i = g' i) :
    checkUnit len f g p = checkUnit len f g' p := by
  unfold checkUnit
  split
  · rfl
  · rw [find?_congr fun i hi => by rw [h i (List.mem_range.mp hi)]]

theorem any_congr {α : Type*} {l : List α} {f g : α → Bool} (h : ∀ a ∈ l, f a = g a) : l.any f = l.any g := by
  induction l with
  | nil => rfl
  | cons a l ih =>
    rw [List.any_cons, List.any_cons, h a List.mem_cons_self, ih fun x hx => h x (List.mem_cons_of_mem _ hx)]

theorem checkCoord_congr {junk : ℤ} {len : ℕ} {f : ℕ → ℤ} {den lc : ℤ} {n : ℕ} {g g' : ℕ → ℕ} {p : ℕ} (h : ∀ i < len, g i = g' i) :
    checkCoord junk len f den lc n g p = checkCoord junk len f den lc n g' p := by
  unfold checkCoord
  split
  · rfl
  · exact any_congr fun i hi => by rw [h i (List.mem_range.mp hi)]

/-- What a successful check says. -/
theorem check_false {c : Cfg} {m m' : PSt} {g : Img} (hg : GoodImg c g) (hlt : g.p < 2 ^ 32) (he : ∀ i ≤ c.nsols, g.e i < g.p)
    (hc : ∀ i < c.nc, ∀ j < g.clen i, g.c i j < g.p) (h : check c m g = some (false, m')) :
    ¬ (g.p : ℤ) ∣ m.E c.nsols ∧ (∀ i ≤ c.nsols, m.E i ≡ m.E c.nsols * g.e i [ZMOD g.p]) ∧
      ∀ i < c.nc, ¬ (g.p : ℤ) ∣ m.cf i * c.nsols → ∀ j < g.clen i,
        m.C i j ≡ m.E c.nsols * m.cf i * c.nsols * g.c i j [ZMOD g.p] := by
  have hp : Fact g.p.Prime := ⟨hg.prime⟩
  have hval : ∀ a < g.p, ((a : ℕ) : ZMod g.p).val = a := fun a ha => ZMod.val_cast_of_lt ha
  unfold check at h
  split at h
  · cases h
  · rename_i hu
    rw [checkUnit_congr (g' := fun i => ((g.e i : ℕ) : ZMod g.p).val) fun i hi => (hval _ (he i (by omega))).symm] at hu
    obtain ⟨h1, h2⟩ := (checkUnit_zero hlt c.nsols m.E (fun i => ((g.e i : ℕ) : ZMod g.p)) (by rw [hg.monic]; simp)).mp hu
    refine ⟨fun hd => h1 ((ZMod.intCast_zmod_eq_zero_iff_dvd _ _).mpr hd), fun i hi => ?_, fun i hi hcf j hj => ?_⟩
    · rw [← ZMod.intCast_eq_intCast_iff]
      push_cast
      exact h2 i hi
    · split at h
      · rename_i hf
        have h3 := List.find?_eq_none.mp hf i (List.mem_range.mpr hi)
        rw [checkCoord_congr (g' := fun j => ((g.c i j : ℕ) : ZMod g.p).val) fun j hj => (hval _ (hc i hi j hj)).symm] at h3
        have h4 := (checkCoord_eq c.junk (g.clen i) (m.C i) (m.cf i) (m.E c.nsols) c.nsols
          (fun j => ((g.c i j : ℕ) : ZMod g.p)) ?_).mp (by simpa using h3) j hj
        · rw [← ZMod.intCast_eq_intCast_iff]
          push_cast
          exact h4
        · push_cast
          rw [mul_assoc]
          refine mul_ne_zero h1 fun h0 => hcf ?_
          rw [← ZMod.intCast_zmod_eq_zero_iff_dvd]
          push_cast
          exact h0
      · cases h
  · cases h

end ParamLift65

/-- C65: moreover the returned parametrization agrees with the image modulo a further prime, which was not used to compute it,
unless this prime divides the number of solutions or the factor of a coordinate. -/
theorem C65_confirmed (c : Cfg) (g0 : Img) (rounds : List (Bool × List (ℕ × Option Img))) (hi : Input c g0 rounds)
    (s : St (Option PSt)) (h : run c g0 rounds = .done s) :
    ∃ m g, s.m = some m ∧ (g.p, some g) ∈ rounds.flatMap Prod.snd ∧ g.p ∉ s.used ∧ ¬ (g.p : ℤ) ∣ m.E c.nsols ∧
      (∀ i ≤ c.nsols, m.E i ≡ m.E c.nsols * g.e i [ZMOD g.p]) ∧
      ∀ i < c.nc, ¬ (g.p : ℤ) ∣ m.cf i * c.nsols → ∀ j < g.clen i,
        m.C i j ≡ m.E c.nsols * m.cf i * c.nsols * g.c i j [ZMOD g.p] := by
  obtain ⟨q, g, hg, hq, hu⟩ := C56_confirmed _ _ _ _ _ _ _ h
  cases hm : s.m with
  | none => rw [hm] at hq; simp [chk] at hq
  | some m =>
    obtain ⟨r, hr, ht⟩ := List.mem_flatMap.mp hg
    obtain ⟨rfl, hgood⟩ := hi.threads r hr _ ht g rfl
    obtain ⟨e1, e2, e3⟩ := hi.entries r hr _ ht g rfl
    rw [hm] at hq
    simp only [chk] at hq
    cases hc : check c m g with
    | none => rw [hc] at hq; simp at hq
    | some x =>
      obtain ⟨b, m'⟩ := x
      rw [hc] at hq
      simp only at hq
      subst hq
      exact ⟨m, g, rfl, hg, hu hi.distinct, check_false hgood e1 e2 e3 hc⟩

namespace ParamLift65

theorem prod_dvd {U : List Img} (hp : ∀ g ∈ U, g.p.Prime) (hn : (U.map Img.p).Nodup) {x : ℤ} (hd : ∀ g ∈ U, (g.p : ℤ) ∣ x) :
    (((U.map Img.p).prod : ℕ) : ℤ) ∣ x := by
  induction U with
  | nil => simp
  | cons g U ih =>
    rw [List.map_cons, List.nodup_cons] at hn
    rw [List.map_cons, List.prod_cons, Nat.cast_mul]
    refine IsCoprime.mul_dvd ?_ (hd g List.mem_cons_self)
      (ih (fun g hg => hp g (List.mem_cons_of_mem _ hg)) hn.2 fun g hg => hd g (List.mem_cons_of_mem _ hg))
    refine Nat.isCoprime_iff_coprime.mpr (Nat.coprime_list_prod_right_iff.mpr fun q hq => ?_)
    obtain ⟨g', hg', rfl⟩ := List.mem_map.mp hq
    exact (Nat.coprime_primes (hp g List.mem_cons_self) (hp g' (List.mem_cons_of_mem _ hg'))).mpr
      fun h => hn.1 (h ▸ List.mem_map_of_mem hg')

end ParamLift65

/-- C65: if the images are the reductions of a parametrization over the rationals (`num i / den i` the coefficients of the
monic eliminating polynomial, `cnum i j / cden i j` those of the coordinates), every coefficient returned is the exact one
as soon as the difference below is smaller than the product of the primes `U`. -/
theorem C65_exact (c : Cfg) (g0 : Img) (rounds : List (Bool × List (ℕ × Option Img))) (hi : Input c g0 rounds)
    (len : ℕ → ℕ) (hlen0 : g0.clen = len) (hlen : ∀ r ∈ rounds, ∀ t ∈ r.2, ∀ g, t.2 = some g → g.clen = len)
    (num den : ℕ → ℤ) (cnum cden : ℕ → ℕ → ℤ)
    (hE : ∀ g, Given g0 rounds g → ∀ i ≤ c.nsols, den i * g.e i ≡ num i [ZMOD g.p])
    (hC : ∀ g, Given g0 rounds g → ∀ i < c.nc, ∀ j < c.nsols, cden i j * coordCoeff g i j ≡ cnum i j [ZMOD g.p])
    (s : St (Option PSt)) (h : run c g0 rounds = .done s) :
    ∃ m, s.m = some m ∧ m.E c.nsols ≠ 0 ∧ (∀ i < c.nc, 0 < m.cf i) ∧
      ∃ U : List Img, g0 ∈ U ∧ (U.map Img.p).Nodup ∧ (∀ g ∈ U, g.p ∈ s.used ∧ Reduces c m g) ∧
      (∀ i ≤ c.nsols, |m.E i * den i - m.E c.nsols * num i| < (U.map Img.p).prod → m.E i * den i = m.E c.nsols * num i) ∧
      ∀ i < c.nc, ∀ j < c.nsols,
        |m.C i j * cden i j - m.E c.nsols * m.cf i * c.nsols * cnum i j| < (U.map Img.p).prod →
        m.C i j * cden i j = m.E c.nsols * m.cf i * c.nsols * cnum i j := by
  obtain ⟨m, hm, hcf, U, u0, un, ug, ur⟩ := C65_reduces c g0 rounds hi len hlen0 hlen s h
  obtain ⟨m', g, hm', _, _, hne, _⟩ := C65_confirmed c g0 rounds hi s h
  rw [hm] at hm'
  cases hm'
  have hp : ∀ g ∈ U, g.p.Prime := by
    intro g hg
    rcases (ug g hg).1 with rfl | hg
    · exact hi.first.prime
    · obtain ⟨r, hr, ht⟩ := List.mem_flatMap.mp hg
      exact (hi.threads r hr _ ht g rfl).2.prime
  have key : ∀ x y : ℤ, (∀ g ∈ U, x ≡ y [ZMOD g.p]) → |x - y| < (U.map Img.p).prod → x = y := fun x y hxy hlt =>
    sub_eq_zero.mp (Int.eq_zero_of_abs_lt_dvd (prod_dvd hp un fun g hg => (hxy g hg).symm.dvd) hlt)
  refine ⟨m, hm, fun h0 => hne (h0 ▸ dvd_zero _), hcf, U, u0, un, fun g hg => ⟨(ug g hg).2, ur g hg⟩,
    fun i hi => key _ _ fun g hg => ?_, fun i hi j hj => key _ _ fun g hg => ?_⟩
  · calc m.E i * den i ≡ m.E c.nsols * g.e i * den i [ZMOD g.p] := ((ur g hg).elim i hi).mul_right _
      _ = m.E c.nsols * (den i * g.e i) := by ring
      _ ≡ m.E c.nsols * num i [ZMOD g.p] := (hE g (ug g hg).1 i hi).mul_left _
  · calc m.C i j * cden i j ≡ m.E c.nsols * m.cf i * c.nsols * coordCoeff g i j * cden i j [ZMOD g.p] :=
          ((ur g hg).coord i hi j hj).mul_right _
      _ = m.E c.nsols * m.cf i * c.nsols * (cden i j * coordCoeff g i j) := by ring
      _ ≡ _ [ZMOD g.p] := (hC g (ug g hg).1 i hi j hj).mul_left _

namespace ParamLift65

/-- The image of `n / d` modulo `p`. -/
def fracMod (n d : ℤ) (p : ℕ) : ℕ := (n * Int.gcdA d p % p).toNat

/-- The images of `x^2 - x / 3 + 2 / 5`, with one coordinate `3 x / 7 - 1 / 2`. -/
def exImg (p : ℕ) : Img where
  p := p
  elen := 3
  e := fun i => if i = 0 then fracMod 2 5 p else if i = 1 then fracMod (-1) 3 p else if i = 2 then 1 else 0
  clen := fun _ => 2
  c := fun _ j => if j = 0 then fracMod (-1) 2 p else if j = 1 then fracMod 3 7 p else 0

def exCfg : Cfg := { nsols := 2, nc := 1, tridx := tridx (exImg 30011), detidx := detidx (exImg 30011), inv := Int.gcdA, junk := 0 }

def exRounds : List (Bool × List (ℕ × Option Img)) :=
  [(true, [(30013, some (exImg 30013))]), (true, [(30029, some (exImg 30029))]), (true, [(30047, some (exImg 30047))])]

/-- What is returned. -/
def exOut (o : Outcome (Option PSt)) : Option (List ℤ × List ℤ × ℤ × List ℕ) :=
  match o with
  | .done s => s.m.map fun m => ((List.range 3).map m.E, (List.range 2).map (m.C 0), m.cf 0, s.used)
  | _ => none

example : exCfg.tridx = 1 ∧ exCfg.detidx = 1 := by decide +kernel
/-- `15 x^2 - 5 x + 6`, `90 x - 105` with the factor 7. -/
example : exOut (run exCfg (exImg 30011) exRounds) = some ([6, -5, 15], [-105, 90], 7, [30029, 30013, 30011]) := by decide +kernel

theorem ex_given : ∀ g, Given (exImg 30011) exRounds g → ∃ p ∈ [30011, 30013, 30029, 30047], g = exImg p := by
  intro g hg
  rcases hg with rfl | hg
  · exact ⟨_, by simp, rfl⟩
  · simp only [exRounds, List.flatMap_cons, List.flatMap_nil, List.append_nil, List.mem_append, List.mem_cons,
      List.not_mem_nil, or_false, Prod.mk.injEq, Option.some.injEq] at hg
    rcases hg with hg | hg | hg <;> exact ⟨_, by simp, hg.2⟩

theorem ex_input : Input exCfg (exImg 30011) exRounds := by
  have hgood : ∀ p ∈ [30011, 30013, 30029, 30047], GoodImg exCfg (exImg p) := by
    intro p hp
    refine ⟨?_, rfl, rfl, fun i => Nat.le_refl _⟩
    simp only [List.mem_cons, List.not_mem_nil, or_false] at hp
    rcases hp with rfl | rfl | rfl | rfl <;> norm_num [exImg]
  have hent : ∀ p ∈ [30011, 30013, 30029, 30047], p < 2 ^ 32 ∧ (∀ i < 3, (exImg p).e i < p) ∧
    ∀ i < 1, ∀ j < 2, (exImg p).c i j < p := by decide +kernel
  have hin : ∀ r ∈ exRounds, ∀ t ∈ r.2, ∃ p ∈ [30011, 30013, 30029, 30047], t = (p, some (exImg p)) := by
    intro r hr t ht
    simp only [exRounds, List.mem_cons, List.not_mem_nil, or_false] at hr
    rcases hr with rfl | rfl | rfl <;> exact ⟨_, by simp, List.mem_singleton.mp ht⟩
  refine ⟨?_, hgood _ (by simp), fun i hi => (hent _ (by simp)).2.1 i (by have : i ≤ 2 := hi; omega),
    fun i hi j hj => (hent _ (by simp)).2.2 i hi j hj, fun r hr t ht => ?_, fun r hr t ht g hg => ?_, by decide +kernel⟩
  · intro a m _ _ _ hg
    have := Int.gcd_eq_gcd_ab a m
    rw [hg] at this
    have e : m ∣ 1 - Int.gcdA a m * a := ⟨Int.gcdB a m, by push_cast at this; linarith⟩
    exact (Int.modEq_iff_dvd).mpr e
  · obtain ⟨p, hp, rfl⟩ := hin r hr t ht
    intro g hg
    cases hg
    exact ⟨rfl, hgood p hp⟩
  · obtain ⟨p, hp, rfl⟩ := hin r hr t ht
    cases hg
    exact ⟨(hent p hp).1, fun i hi => (hent p hp).2.1 i (by have : i ≤ 2 := hi; omega), (hent p hp).2.2⟩

end ParamLift65

/-- C65: the confirmation is not a proof. All images are the reductions of `x^2 + (M - 1 / 3) x + 2 / 5`, where `M` is the
product of the four primes, and the loop returns `15 x^2 - 5 x + 6`. -/
theorem C65_not_certified : ∃ (c : Cfg) (g0 : Img) (rounds : List (Bool × List (ℕ × Option Img))) (num den : ℕ → ℤ),
    Input c g0 rounds ∧ (∀ i, den i ≠ 0) ∧ (∀ g, Given g0 rounds g → ∀ i ≤ c.nsols, den i * g.e i ≡ num i [ZMOD g.p]) ∧
    ∃ s m, run c g0 rounds = .done s ∧ s.m = some m ∧ m.E 1 * den 1 ≠ m.E c.nsols * num 1 := by
  refine ⟨exCfg, exImg 30011, exRounds, fun i => if i = 0 then 2 else if i = 1 then 3 * (30011 * 30013 * 30029 * 30047) - 1 else 1,
    fun i => if i = 0 then 5 else if i = 1 then 3 else 1, ex_input, fun i => by dsimp only; split_ifs <;> norm_num, ?_, ?_⟩
  · intro g hg i hi
    obtain ⟨p, hp, rfl⟩ := ex_given g hg
    have : ∀ p ∈ [30011, 30013, 30029, 30047], ∀ i < 3, ((if i = 0 then 5 else if i = 1 then 3 else 1 : ℤ) * (exImg p).e i) % p =
      (if i = 0 then 2 else if i = 1 then 3 * (30011 * 30013 * 30029 * 30047) - 1 else 1 : ℤ) % p := by decide +kernel
    exact this p hp i (by have : i ≤ 2 := hi; omega)
  · have h : exOut (run exCfg (exImg 30011) exRounds) = some ([6, -5, 15], [-105, 90], 7, [30029, 30013, 30011]) := by
      decide +kernel
    unfold exOut at h
    split at h
    · rename_i s hs
      cases hm : s.m with
      | none => rw [hm] at h; cases h
      | some m =>
        rw [hm] at h
        simp only [Option.map_some, Option.some.injEq, Prod.mk.injEq] at h
        have h1 := h.1
        simp only [List.range_succ, List.range_zero, List.nil_append, List.cons_append, List.map_cons, List.map_nil,
          List.cons.injEq] at h1
        refine ⟨s, m, hs, hm, ?_⟩
        have e2 : m.E exCfg.nsols = 15 := h1.2.2.1
        rw [e2, h1.2.1]
        norm_num
    · cases h

/-- C65: the equality of the lengths is needed. The remaindering of a coordinate reads the array of its image beyond the
length: two equal images, which differ there, lead to different coefficients. -/
theorem C65_stale_entries : ∃ (c : Cfg) (g0 g g' : Img), InvSpec c.inv ∧ GoodImg c g0 ∧ GoodImg c g ∧ GoodImg c g' ∧ g.p ≠ g0.p ∧
    g.p = g'.p ∧ g.elen = g'.elen ∧ g.e = g'.e ∧ g.clen = g'.clen ∧ (∀ i, ∀ j < g.clen i, g.c i j = g'.c i j) ∧
    ∃ s s', crtAll c (init c g0) g = some s ∧ crtAll c (init c g0) g' = some s' ∧ s.crtC 0 1 ≠ s'.crtC 0 1 := by
  have h : ∀ a : ℕ, GoodImg exCfg { exImg 30013 with clen := fun _ => 1, c := fun i j => if j = 1 then a else (exImg 30013).c i j } :=
    fun a => ⟨by norm_num [exImg], rfl, rfl, fun i => Nat.le_succ _⟩
  have hr : ∀ a : Option ℤ, ∀ o : Option PSt, o.map (fun s => s.crtC 0 1) = a → ∀ x, a = some x → ∃ s, o = some s ∧ s.crtC 0 1 = x := by
    intro a o ho x hx
    subst hx
    cases o with
    | none => cases ho
    | some s => exact ⟨s, rfl, by simpa using ho⟩
  obtain ⟨s, hs, hx⟩ := hr _ (crtAll exCfg (init exCfg (exImg 30011)) { exImg 30013 with clen := fun _ => 1, c := fun i j => if j = 1 then 0 else (exImg 30013).c i j }) rfl
    579040809 (by decide +kernel)
  obtain ⟨s', hs', hx'⟩ := hr _ (crtAll exCfg (init exCfg (exImg 30011)) { exImg 30013 with clen := fun _ => 1, c := fun i j => if j = 1 then 1 else (exImg 30013).c i j }) rfl
    128665732 (by decide +kernel)
  refine ⟨exCfg, exImg 30011, _, _, ex_input.inv, ex_input.first, h 0, h 1, by decide, rfl, rfl, rfl, rfl, ?_, s, s', hs, hs', ?_⟩
  · intro i j hj
    have : j < 1 := hj
    have : j = 0 := by omega
    subst this
    rfl
  · rw [hx, hx']
    norm_num

end Verif.Props
