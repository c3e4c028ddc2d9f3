import Verif.Spec.Initial
import Verif.TraceHom
import Verif.TraceRun

/-! Property C66: bases computed modulo further primes with the trace of a first run. -/

namespace Verif.Props

open Verif.Pairs Verif.Spec Verif.F4 Verif.Groebner Verif.RowReduce MvPolynomial

variable {n : Nat}

/-- The ideal of a list of polynomials modulo a prime. -/
noncomputable abbrev idl (p : Nat) (F : List (Poly n)) : Ideal (MvPolynomial (Fin n) (ZMod p)) :=
  Ideal.span { g | ∃ f ∈ F, g = toMv p f }

theorem initials_of_groebner {K : Type*} [Field K] {m : MonomialOrder (Fin n)} {I : Ideal (MvPolynomial (Fin n) K)}
    {G : Set (MvPolynomial (Fin n) K)} (h : IsGroebner m I G) :
    initials m I = { d | ∃ g ∈ G, g ≠ 0 ∧ m.degree g ≤ d } := by
  classical
  ext d
  constructor
  · rintro ⟨f, hf, h0, rfl⟩
    exact h.2 f hf h0
  · rintro ⟨g, hg, h0, hle⟩
    have hX : (monomial (d - m.degree g) (1 : K)) ≠ 0 := by simp
    refine ⟨monomial (d - m.degree g) 1 * g, Ideal.mul_mem_left _ _ (h.1 g hg), mul_ne_zero hX h0, ?_⟩
    rw [m.degree_mul hX h0, m.degree_monomial, if_neg one_ne_zero, tsub_add_cancel_of_le hle]

/-- What is known about a learning run and an accepted application of its trace. -/
structure Tr66 (C C' : Cfg n) (F F' G G' : List (Poly n)) (s : St n) (els : List (Poly n)) (L : List Nat) : Prop where
  fin : FinalOk C s.els L G
  fin' : FinalOk C' els L G'
  same : ∀ k, lead (els.getD k []) = lead (s.els.getD k [])
  min : L.Pairwise (fun a b => ¬ lead (s.els.getD a []) ≤ lead (s.els.getD b []) ∧
        ¬ lead (s.els.getD b []) ≤ lead (s.els.getD a []))
  ideal' : idl C'.p els = idl C'.p F'

theorem learn_final {C : Cfg n} (hC : CfgOk C) {F : List (Poly n)} (hF : ∀ f ∈ F, PolyOk C.ord C.p f) {tr : Tr n}
    {G : List (Poly n)} (h : Learn C F tr G) :
    ∃ s, Reach C F s ∧ LReach C F s tr.td ∧ done s ∧ finalLmps s = some tr.lmps ∧ FinalL C s.els tr.lmps G ∧ Final C s G := by
  have : Fact C.p.Prime := ⟨hC.prime⟩
  obtain ⟨s, T, L, G, h1, h2, h3, h4⟩ := h
  exact ⟨s, (lReach_ok hC hF h1).1, h1, h2, h3, h4, L, h3, h4⟩

/-- Elements of an application run have the leading monomials of the learning run. -/
theorem app_leads {C C' : Cfg n} (hC : CfgOk C) (hC' : CfgOk C') {F F' : List (Poly n)}
    (hF : ∀ f ∈ F, PolyOk C.ord C.p f) (hF' : ∀ f ∈ F', PolyOk C'.ord C'.p f) (hl : F'.map lead = F.map lead)
    {tr : Tr n} {s : St n} (hs : LReach C F s tr.td) {els : List (Poly n)} (h : ARun C' tr.rounds F' (some els)) :
    (∀ f ∈ els, PolyOk C'.ord C'.p f) ∧ els.map lead = s.els.map lead ∧ idl C'.p els = idl C'.p F' := by
  have : Fact C.p.Prime := ⟨hC.prime⟩
  have : Fact C'.p.Prime := ⟨hC'.prime⟩
  obtain ⟨_, h2, h3⟩ := lReach_ok hC hF hs
  obtain ⟨h4, h5⟩ := rounds_ok h2
  rw [← hl] at h4
  obtain ⟨a1, a2, a3⟩ := aRun_ok hC' h hF' h4 els rfl
  refine ⟨a1, ?_, a3⟩
  rw [a2, h5, hl, h3]

theorem tr66_facts {C C' : Cfg n} (hC : CfgOk C) (hC' : CfgOk C') {F F' : List (Poly n)}
    (hF : ∀ f ∈ F, PolyOk C.ord C.p f) (hF' : ∀ f ∈ F', PolyOk C'.ord C'.p f) (hl : F'.map lead = F.map lead)
    {tr : Tr n} {G G' : List (Poly n)} (h : Learn C F tr G) (h' : Apply C' F' tr (some G')) :
    ∃ s els, Tr66 C C' F F' G G' s els tr.lmps := by
  have : Fact C.p.Prime := ⟨hC.prime⟩
  have : Fact C'.p.Prime := ⟨hC'.prime⟩
  obtain ⟨s, h1, h2, h3, h4, h5, h6⟩ := learn_final hC hF h
  have hinv := reach_inv hC hF h1
  obtain ⟨L, hL, hlt, hmin, _⟩ := finalLmps_spec hinv
  rw [h4] at hL
  obtain rfl := Option.some.inj hL
  cases h' with
  | ok els _ hr hG =>
    obtain ⟨a1, a2, a3⟩ := app_leads hC hC' hF hF' hl h2 hr
    have hlead : ∀ k, lead (els.getD k []) = lead (s.els.getD k []) := fun k => by rw [lead_getD, lead_getD, a2]
    have hlen : els.length = s.els.length := by simpa using congrArg List.length a2
    refine ⟨s, els, finalL_ok hC hinv.ok hlt hmin h5, ?_, hlead, hmin, a3⟩
    refine finalL_ok (s := ⟨els, s.pst, false⟩) hC' a1 ?_ ?_ hG
    · intro k hk; exact hlen ▸ hlt k hk
    · simpa only [hlead] using hmin

/-! ### The learning run -/

/-- **C66**: the learning run has a result, and each result is the reduced Gröbner basis. -/
theorem C66_learn {C : Cfg n} (hC : CfgOk C) {F : List (Poly n)} (hF : ∀ f ∈ F, PolyOk C.ord C.p f) :
    have : Fact C.p.Prime := ⟨hC.prime⟩
    (F ≠ [] → ∃ tr G, Learn C F tr G) ∧
    ∀ tr G, Learn C F tr G → IsReducedGroebner C.ord.mo (idl C.p F) { g | ∃ f ∈ G, g = toMv C.p f } ∧
      (∀ f ∈ G, PolyOk C.ord C.p f) ∧ G.Pairwise fun a b => C.ord.lt (lead a) (lead b) := by
  intro _
  constructor
  · intro hne
    obtain ⟨s, G, h1, h2, L, h3, h4⟩ := (C44_reduced hC hF).1 hne
    obtain ⟨T, hT⟩ := lReach_of_reach h1
    exact ⟨_, G, .mk s T L G hT h2 h3 h4⟩
  · intro tr G h
    obtain ⟨s, h1, h2, h3, h4, h5, h6⟩ := learn_final hC hF h
    exact (C44_reduced hC hF).2 s G h1 h3 h6

/-! ### Applications -/

/-- **C66**: the trace can be applied modulo every other prime for which the generators have the same leading
monomials: the run never gets stuck, reads only existing elements and ends, with a basis or with the prime
rejected. -/
theorem C66_total {C C' : Cfg n} (hC : CfgOk C) (hC' : CfgOk C') {F F' : List (Poly n)}
    (hF : ∀ f ∈ F, PolyOk C.ord C.p f) (hF' : ∀ f ∈ F', PolyOk C'.ord C'.p f) (hl : F'.map lead = F.map lead)
    {tr : Tr n} {G : List (Poly n)} (h : Learn C F tr G) : ∃ r, Apply C' F' tr r := by
  have : Fact C.p.Prime := ⟨hC.prime⟩
  have : Fact C'.p.Prime := ⟨hC'.prime⟩
  obtain ⟨s, h1, h2, h3, h4, h5, h6⟩ := learn_final hC hF h
  have hinv := reach_inv hC hF h1
  obtain ⟨L, hL, hlt, hmin, _⟩ := finalLmps_spec hinv
  rw [h4] at hL
  obtain rfl := Option.some.inj hL
  have hTr := (rounds_ok (lReach_ok hC hF h2).2.1).1
  rw [← hl] at hTr
  obtain ⟨r, hr⟩ := aRun_exists hC' tr.rounds F' hF' hTr
  cases r with
  | none => exact ⟨_, .bad hr⟩
  | some els =>
    obtain ⟨a1, a2, a3⟩ := app_leads hC hC' hF hF' hl h2 hr
    have hlead : ∀ k, lead (els.getD k []) = lead (s.els.getD k []) := fun k => by rw [lead_getD, lead_getD, a2]
    have hlen : els.length = s.els.length := by simpa using congrArg List.length a2
    have hne : tr.lmps ≠ [] := by
      obtain ⟨_, _, _, _, _, _, _, hne, _⟩ := h5
      exact hne
    obtain ⟨G', hG'⟩ := finalL_exists (C := C') (s := ⟨els, s.pst, false⟩) hC' a1 (L := tr.lmps)
      (fun k hk => hlen ▸ hlt k hk) (by simpa only [hlead] using hmin) hne
    exact ⟨_, .ok els G' hr hG'⟩

/-- **C66**: an accepted basis lies in the ideal, has the leading monomials of the first basis in the same order,
leading coefficients one and no other term divisible by a leading monomial. -/
theorem C66_sound {C C' : Cfg n} (hC : CfgOk C) (hC' : CfgOk C') (hord : C'.ord = C.ord) {F F' : List (Poly n)}
    (hF : ∀ f ∈ F, PolyOk C.ord C.p f) (hF' : ∀ f ∈ F', PolyOk C'.ord C'.p f) (hl : F'.map lead = F.map lead)
    {tr : Tr n} {G G' : List (Poly n)} (h : Learn C F tr G) (h' : Apply C' F' tr (some G')) :
    G'.map lead = G.map lead ∧ ∀ g ∈ G', PolyOk C.ord C'.p g ∧ toMv C'.p g ∈ idl C'.p F' ∧
      ∀ t ∈ g, t.1 ≠ lead g → ∀ e ∈ G', ¬ lead e ≤ t.1 := by
  obtain ⟨s, els, hT⟩ := tr66_facts hC hC' hF hF' hl h h'
  obtain ⟨f1, f2, f3, f4, f5⟩ := hT
  have hadm := C.ord.adm (n := n)
  constructor
  · have hs1 : (G.map lead).Pairwise C.ord.lt := List.pairwise_map.mpr f1.sorted
    have hs2 : (G'.map lead).Pairwise C.ord.lt := by
      have := f2.sorted
      rw [hord] at this
      exact List.pairwise_map.mpr this
    have hnd : ∀ {l : List (Mon n)}, l.Pairwise C.ord.lt → l.Nodup := by
      intro l hl
      refine List.Pairwise.imp ?_ hl
      rintro a b hab rfl
      exact hadm.irrefl _ hab
    have hp : (G'.map lead).Perm (G.map lead) := (List.perm_ext_iff_of_nodup (hnd hs2) (hnd hs1)).mpr fun u => by
      simp only [List.mem_map]
      constructor
      · rintro ⟨g, hg, rfl⟩
        obtain ⟨k, hk, he, _⟩ := f2.mem g hg
        obtain ⟨g', hg', he'⟩ := f1.ex k hk
        exact ⟨g', hg', by rw [he', he, f3]⟩
      · rintro ⟨g, hg, rfl⟩
        obtain ⟨k, hk, he, _⟩ := f1.mem g hg
        obtain ⟨g', hg', he'⟩ := f2.ex k hk
        exact ⟨g', hg', by rw [he', he, f3]⟩
    exact hp.eq_of_pairwise (le := C.ord.lt)
      (fun a b _ _ hab hba => absurd (hadm.trans _ _ _ hab hba) (hadm.irrefl _)) hs2 hs1
  · intro g hg
    obtain ⟨k, hk, he, h1, h2, h3⟩ := f2.mem g hg
    rw [hord] at h1
    refine ⟨h1, f5 ▸ h2, ?_⟩
    intro t ht hne e hee
    rcases h3 t ht with h4 | h4
    · exact absurd (h4.trans he.symm) hne
    · obtain ⟨k', hk', he', _⟩ := f2.mem e hee
      rw [he']
      exact h4 k' hk'

/-- An accepted prime has at least the initial monomials of the first prime. -/
theorem initials_accepted {C C' : Cfg n} (hC : CfgOk C) (hC' : CfgOk C') (hord : C'.ord = C.ord) {F F' : List (Poly n)}
    (hF : ∀ f ∈ F, PolyOk C.ord C.p f) (hF' : ∀ f ∈ F', PolyOk C'.ord C'.p f) (hl : F'.map lead = F.map lead)
    {tr : Tr n} {G G' : List (Poly n)} (h : Learn C F tr G) (h' : Apply C' F' tr (some G')) :
    have : Fact C.p.Prime := ⟨hC.prime⟩
    have : Fact C'.p.Prime := ⟨hC'.prime⟩
    initials C.ord.mo (idl C.p F) ⊆ initials C.ord.mo (idl C'.p F') := by
  intro _ _
  obtain ⟨hGB, hok, _⟩ := (C66_learn hC hF).2 tr G h
  obtain ⟨hm, hg⟩ := C66_sound hC hC' hord hF hF' hl h h'
  rw [initials_of_groebner hGB.1]
  rintro d ⟨_, ⟨f, hf, rfl⟩, _, hle⟩
  have h1 : lead f ∈ G'.map lead := by rw [hm]; exact List.mem_map_of_mem hf
  obtain ⟨g, hg', he⟩ := List.mem_map.mp h1
  obtain ⟨g1, g2, _⟩ := hg g hg'
  have h0 := ne_zero_of_monic (m := C.ord.mo) g1.monic
  have hX : (monomial (d - C.ord.mo.degree (toMv C'.p g)) (1 : ZMod C'.p)) ≠ 0 := by simp
  refine ⟨monomial (d - C.ord.mo.degree (toMv C'.p g)) 1 * toMv C'.p g, Ideal.mul_mem_left _ _ g2, mul_ne_zero hX h0, ?_⟩
  rw [(hok f hf).degree] at hle
  rw [C.ord.mo.degree_mul hX h0, C.ord.mo.degree_monomial, if_neg one_ne_zero, tsub_add_cancel_of_le]
  rw [g1.degree, he]
  exact hle

/-- **C66**: an accepted basis is the reduced Gröbner basis of the ideal modulo the new prime if and only if both
ideals have the same initial monomials. -/
theorem C66_iff {C C' : Cfg n} (hC : CfgOk C) (hC' : CfgOk C') (hord : C'.ord = C.ord) {F F' : List (Poly n)}
    (hF : ∀ f ∈ F, PolyOk C.ord C.p f) (hF' : ∀ f ∈ F', PolyOk C'.ord C'.p f) (hl : F'.map lead = F.map lead)
    {tr : Tr n} {G G' : List (Poly n)} (h : Learn C F tr G) (h' : Apply C' F' tr (some G')) :
    have : Fact C.p.Prime := ⟨hC.prime⟩
    have : Fact C'.p.Prime := ⟨hC'.prime⟩
    IsReducedGroebner C.ord.mo (idl C'.p F') { g | ∃ f ∈ G', g = toMv C'.p f } ↔
      initials C.ord.mo (idl C'.p F') = initials C.ord.mo (idl C.p F) := by
  intro _ _
  obtain ⟨hGB, hok, _⟩ := (C66_learn hC hF).2 tr G h
  obtain ⟨hm, hg⟩ := C66_sound hC hC' hord hF hF' hl h h'
  have hmem : ∀ u, (∃ f ∈ G, lead f = u) ↔ ∃ g ∈ G', lead g = u := by
    intro u
    rw [← List.mem_map, ← List.mem_map, hm]
  constructor
  · intro hR
    rw [initials_of_groebner hR.1, initials_of_groebner hGB.1]
    ext d
    constructor
    · rintro ⟨_, ⟨g, hg', rfl⟩, _, hle⟩
      obtain ⟨f, hf, he⟩ := (hmem _).mpr ⟨g, hg', rfl⟩
      refine ⟨_, ⟨f, hf, rfl⟩, ne_zero_of_monic (m := C.ord.mo) (hok f hf).monic, ?_⟩
      rw [(hok f hf).degree, he, ← (hg g hg').1.degree]
      exact hle
    · rintro ⟨_, ⟨f, hf, rfl⟩, _, hle⟩
      obtain ⟨g, hg', he⟩ := (hmem _).mp ⟨f, hf, rfl⟩
      refine ⟨_, ⟨g, hg', rfl⟩, ne_zero_of_monic (m := C.ord.mo) (hg g hg').1.monic, ?_⟩
      rw [(hg g hg').1.degree, he, ← (hok f hf).degree]
      exact hle
  · intro hI
    obtain ⟨s, els, f1, f2, f3, f4, f5⟩ := tr66_facts hC hC' hF hF' hl h h'
    have := f2.reduced (I := idl C'.p F') f5.le (by simpa only [f3] using f4) (by
      rw [hord]
      intro f hf h0
      have h1 : C.ord.mo.degree f ∈ initials C.ord.mo (idl C'.p F') := ⟨f, hf, h0, rfl⟩
      rw [hI, initials_of_groebner hGB.1] at h1
      obtain ⟨_, ⟨g, hg', rfl⟩, _, hle⟩ := h1
      obtain ⟨k, hk, he, hgok, _⟩ := f1.mem g hg'
      refine ⟨k, hk, ?_⟩
      rw [f3, ← he, ← hgok.degree]
      exact hle)
    rw [hord] at this
    exact this

/-- **C66**: modulo the first prime itself, every application of the trace is accepted and returns the basis of the
learning run, whatever the schedules of the threads in both runs. -/
theorem C66_same {C : Cfg n} (hC : CfgOk C) {F : List (Poly n)} (hF : ∀ f ∈ F, PolyOk C.ord C.p f)
    {tr : Tr n} {G : List (Poly n)} (h : Learn C F tr G) {r : Option (List (Poly n))} (h' : Apply C F tr r) :
    r = some G := by
  have : Fact C.p.Prime := ⟨hC.prime⟩
  obtain ⟨s, h1, h2, h3, h4, h5, h6⟩ := learn_final hC hF h
  cases h' with
  | bad hr => exact absurd (rounds_same hC hF h2 hr) (by simp)
  | ok els G' hr hG =>
    obtain rfl := Option.some.inj (rounds_same hC hF h2 hr)
    rw [C51_deterministic hC hC rfl rfl hF hF rfl h1 h3 h6 h1 h3 ⟨_, h4, hG⟩]

/-- **C66**: for homogeneous input with integer coefficients and a first prime modulo which the initial monomials
are those over the rationals, every accepted basis is the reduced Gröbner basis modulo the new prime, and the new
prime has the initial monomials of the rationals, too. -/
theorem C66_homogeneous {C C' : Cfg n} (hC : CfgOk C) (hC' : CfgOk C') (hord : C'.ord = C.ord) {F F' : List (Poly n)}
    (hF : ∀ f ∈ F, PolyOk C.ord C.p f) (hF' : ∀ f ∈ F', PolyOk C'.ord C'.p f) (hl : F'.map lead = F.map lead)
    {ι : Type*} [Finite ι] (f : ι → MvPolynomial (Fin n) ℤ) (e : ι → ℕ) (he : ∀ i, (f i).IsHomogeneous (e i))
    {tr : Tr n} {G G' : List (Poly n)} (h : Learn C F tr G) (h' : Apply C' F' tr (some G')) :
    have : Fact C.p.Prime := ⟨hC.prime⟩
    have : Fact C'.p.Prime := ⟨hC'.prime⟩
    idl C.p F = idealOver (ZMod C.p) f → idl C'.p F' = idealOver (ZMod C'.p) f →
    initials C.ord.mo (idealOver (ZMod C.p) f) = initials C.ord.mo (idealOver ℚ f) →
    IsReducedGroebner C.ord.mo (idealOver (ZMod C'.p) f) { g | ∃ f ∈ G', g = toMv C'.p f } ∧
    initials C.ord.mo (idealOver (ZMod C'.p) f) = initials C.ord.mo (idealOver ℚ f) := by
  intro _ _ hI hI' hlucky
  have h1 := initials_accepted hC hC' hord hF hF' hl h h'
  simp only at h1
  rw [hI, hI', hlucky] at h1
  have h2 := Hom.initials_eq he C.ord.mo C'.p h1
  have h3 := (C66_iff hC hC' hord hF hF' hl h h').mpr (by rw [hI, hI', h2, hlucky])
  rw [hI'] at h3
  exact ⟨h3, h2⟩

/-! ### An unlucky first prime -/

/-- `x^2 + (p - 1) y^2`, `x y + y^2` modulo `q`. -/
def trF (p q : Nat) : List (Poly 2) := [[(![2, 0], 1), (![0, 2], (p - 1) % q)], [(![1, 1], 1), (![0, 2], 1)]]

theorem trF_ok {p q : Nat} (hq : q.Prime) (hd : ¬ q ∣ p - 1) : ∀ f ∈ trF p q, PolyOk .drl q f := by
  have h1 := hq.one_lt
  intro f hf
  simp only [trF, List.mem_cons, List.not_mem_nil, or_false] at hf
  rcases hf with rfl | rfl
  · refine ⟨⟨_, rfl⟩, ?_, ?_⟩
    · simp only [OKind.lt, Drl, DrlOn, List.map_cons, List.map_nil]
      decide
    · intro t ht
      simp only [List.mem_cons, List.not_mem_nil, or_false] at ht
      rcases ht with rfl | rfl
      · exact ⟨one_pos, h1⟩
      · exact ⟨Nat.pos_of_ne_zero fun h => hd (Nat.dvd_of_mod_eq_zero h), Nat.mod_lt _ (by omega)⟩
  · refine ⟨⟨_, rfl⟩, ?_, ?_⟩
    · simp only [OKind.lt, Drl, DrlOn, List.map_cons, List.map_nil]
      decide
    · intro t ht
      simp only [List.mem_cons, List.not_mem_nil, or_false] at ht
      rcases ht with rfl | rfl <;> exact ⟨one_pos, h1⟩

theorem trF_leads (p q : Nat) : (trF p q).map lead = [![2, 0], ![1, 1]] := rfl

/-- `y f - x g = p y^3 - y g`. -/
theorem trF_syz (p q : Nat) (hp : 1 ≤ p) :
    (monomial (fs ![0, 1]) 1 : MvPolynomial (Fin 2) (ZMod q)) * toMv q [(![2, 0], 1), (![0, 2], (p - 1) % q)] -
      monomial (fs ![1, 0]) 1 * toMv q [(![1, 1], 1), (![0, 2], 1)] =
    monomial (fs ![0, 3]) (p : ZMod q) - monomial (fs ![0, 1]) 1 * toMv q [(![1, 1], 1), (![0, 2], 1)] := by
  have e1 : fs ![0, 1] + fs ![2, 0] = fs (![2, 1] : Mon 2) := by rw [← fs_add]; congr 1; decide
  have e2 : fs ![0, 1] + fs ![0, 2] = fs (![0, 3] : Mon 2) := by rw [← fs_add]; congr 1; decide
  have e3 : fs ![1, 0] + fs ![1, 1] = fs (![2, 1] : Mon 2) := by rw [← fs_add]; congr 1; decide
  have e4 : fs ![1, 0] + fs ![0, 2] = fs (![1, 2] : Mon 2) := by rw [← fs_add]; congr 1; decide
  have e5 : fs ![0, 1] + fs ![1, 1] = fs (![1, 2] : Mon 2) := by rw [← fs_add]; congr 1; decide
  simp only [toMv_cons, toMv_nil, add_zero, mul_add, monomial_mul, one_mul, e1, e2, e3, e4, e5, ZMod.natCast_mod,
    Nat.cast_sub hp, Nat.cast_one]
  have : (monomial (fs ![0, 3]) (p : ZMod q)) = monomial (fs (![0, 3] : Mon 2)) ((p : ZMod q) - 1) + monomial (fs ![0, 3]) 1 := by
    rw [← map_add, sub_add_cancel]
  rw [this]
  ring

theorem trF_groebner {p : Nat} [Fact p.Prime] (hok : ∀ f ∈ trF p p, PolyOk .drl p f) :
    IsGroebner (OKind.drl.mo (n := 2)) (idl p (trF p p)) { g | ∃ f ∈ trF p p, g = toMv p f } := by
  have hp := (Fact.out : p.Prime).one_lt
  rw [idl, ← polys_image]
  refine buchberger (fun i hi => (hok _ (getD_mem hi)).monic) ?_
  have hd0 : (OKind.drl.mo (n := 2)).degree (polys p (trF p p) 0) = fs ![2, 0] :=
    (hok _ (List.mem_cons_self)).degree
  have hd1 : (OKind.drl.mo (n := 2)).degree (polys p (trF p p) 1) = fs ![1, 1] :=
    (hok [(![1, 1], 1), (![0, 2], 1)] (by simp [trF])).degree
  have key : Rep (OKind.drl.mo (n := 2)) (idx (trF p p)) (polys p (trF p p)) 0 1 := by
    unfold Rep
    rw [hd0, hd1, ← fs_sup, ← fs_sub, ← fs_sub]
    have e1 : (![2, 0] ⊔ ![1, 1] : Mon 2) = ![2, 1] := by decide
    rw [e1]
    have e2 : (![2, 1] - ![2, 0] : Mon 2) = ![0, 1] := by decide
    have e3 : (![2, 1] - ![1, 1] : Mon 2) = ![1, 0] := by decide
    rw [e2, e3]
    have := trF_syz p p hp.le
    rw [CharP.cast_eq_zero, map_zero, zero_sub] at this
    refine this ▸ Submodule.neg_mem _ (Submodule.subset_span ⟨1, ?_, fs ![0, 1], rfl, ?_⟩)
    · simp [idx, trF]
    · rw [hd1, ← fs_add]
      show Drl _ _
      simp only [Drl, DrlOn]
      decide
  intro i hi j hj
  have hi' : i < 2 := hi
  have hj' : j < 2 := hj
  interval_cases i <;> interval_cases j
  · exact rep_self _
  · exact key
  · exact rep_symm key
  · exact rep_self _

/-- Without luck of the first prime, an accepted basis need not be a Gröbner basis: for the homogeneous polynomials
`x^2 + (p - 1) y^2`, `x y + y^2`, nothing is recorded modulo `p`, and modulo every other prime `q` not dividing
`p - 1` the run is accepted and returns a set which is not a Gröbner basis. -/
theorem C66_unlucky {C C' : Cfg 2} (hC : CfgOk C) (hC' : CfgOk C') (hO : C.ord = .drl) (hO' : C'.ord = .drl)
    (hne : C.p ≠ C'.p) (hdvd : ¬ C'.p ∣ C.p - 1) :
    have : Fact C.p.Prime := ⟨hC.prime⟩
    have : Fact C'.p.Prime := ⟨hC'.prime⟩
    (∃ tr G, Learn C (trF C.p C.p) tr G) ∧
    ∀ tr G, Learn C (trF C.p C.p) tr G → (∃ G', Apply C' (trF C.p C'.p) tr (some G')) ∧
      ∀ r, Apply C' (trF C.p C'.p) tr r → ∃ G', r = some G' ∧
        ¬ IsGroebner C.ord.mo (idl C'.p (trF C.p C'.p)) { g | ∃ f ∈ G', g = toMv C'.p f } := by
  intro hFp hFq
  obtain ⟨O, p, m, u, v⟩ := C
  obtain ⟨O', q, m', u', v'⟩ := C'
  simp only at *
  subst hO hO'
  have hp := hC.prime
  have hq := hC'.prime
  simp only at hp hq
  have hdp : ¬ p ∣ p - 1 := by
    intro h
    have h1 := hp.one_lt
    have := Nat.le_of_dvd (by omega) h
    omega
  have hF := trF_ok hp hdp
  have hF' := trF_ok hq hdvd
  have hl : (trF p q).map lead = (trF p p).map lead := by rw [trF_leads, trF_leads]
  refine ⟨(C66_learn hC hF).1 (by simp [trF]), ?_⟩
  intro tr G h
  have hall : ∀ r, Apply ⟨.drl, q, m', u', v'⟩ (trF p q) tr r → ∃ G', r = some G' := by
    intro r hr
    cases hr with
    | ok els G' _ _ => exact ⟨G', rfl⟩
    | bad hb =>
      exfalso
      obtain ⟨s, _, h2, _⟩ := learn_final hC hF h
      have hT := (trace_nil hC hF (trF_groebner hF) h2).1
      rw [Tr.rounds, if_pos hT] at hb
      cases hb with
      | bad hb => exact absurd (aRound_empty hC' hF' hb) (by simp)
      | step _ hb => cases hb
  refine ⟨?_, ?_⟩
  · obtain ⟨r, hr⟩ := C66_total hC hC' hF hF' hl h
    obtain ⟨G', rfl⟩ := hall r hr
    exact ⟨G', hr⟩
  · intro r hr
    obtain ⟨G', rfl⟩ := hall r hr
    refine ⟨G', rfl, ?_⟩
    intro hG
    obtain ⟨hm, hg⟩ := C66_sound hC hC' rfl hF hF' hl h hr
    -- `p y^3` is in the ideal
    have hmem : (monomial (fs (![0, 3] : Mon 2)) ((p : ℕ) : ZMod q)) ∈ idl q (trF p q) := by
      have := trF_syz p q hp.one_lt.le
      rw [eq_comm, sub_eq_iff_eq_add] at this
      rw [this]
      refine Ideal.add_mem _ (Ideal.sub_mem _ ?_ ?_) ?_
      · exact Ideal.mul_mem_left _ _ (Ideal.subset_span ⟨_, List.mem_cons_self, rfl⟩)
      · exact Ideal.mul_mem_left _ _ (Ideal.subset_span ⟨_, List.mem_cons_of_mem _ List.mem_cons_self, rfl⟩)
      · exact Ideal.mul_mem_left _ _ (Ideal.subset_span ⟨_, List.mem_cons_of_mem _ List.mem_cons_self, rfl⟩)
    have hpq : ((p : ℕ) : ZMod q) ≠ 0 := by
      rw [Ne, ZMod.natCast_eq_zero_iff]
      intro hd
      rcases (Nat.dvd_prime hp).mp hd with h1 | h1
      · exact hq.one_lt.ne' h1
      · exact hne h1.symm
    obtain ⟨_, ⟨g, hg', rfl⟩, _, hle⟩ := hG.2 _ hmem (by simpa using hpq)
    rw [MonomialOrder.degree_monomial, if_neg hpq, (hg g hg').1.degree, fs_le] at hle
    -- the leading monomials are those of the input
    obtain ⟨s, hs1, h2, _, h4, h5, _⟩ := learn_final hC hF h
    have hT := (trace_nil hC hF (trF_groebner hF) h2).2
    have h6 : lead g ∈ (trF p p).map lead := by
      have : lead g ∈ G.map lead := by rw [← hm]; exact List.mem_map_of_mem hg'
      obtain ⟨f, hf, he⟩ := List.mem_map.mp this
      have hinv := reach_inv hC hF hs1
      obtain ⟨L, hL, hlt, hmin, _⟩ := finalLmps_spec hinv
      rw [h4] at hL
      obtain rfl := Option.some.inj hL
      obtain ⟨k, hk, he', _⟩ := (finalL_ok hC hinv.ok hlt hmin h5).mem f hf
      rw [← he, he', ← hT]
      exact List.mem_map_of_mem (getD_mem (hlt k hk))
    rw [trF_leads] at h6
    simp only [List.mem_cons, List.not_mem_nil, or_false] at h6
    rcases h6 with h6 | h6
    · rw [h6] at hle
      exact absurd (hle 0) (by decide)
    · rw [h6] at hle
      exact absurd (hle 0) (by decide)

/-! ### The hypotheses are met -/

theorem tr66_exF {q : Nat} (hq : 5 < q) : ∀ f ∈ exF, PolyOk .drl q f := by
  intro f hf
  obtain ⟨h1, h2, h3⟩ := exF_ok f hf
  refine ⟨h1, h2, fun t ht => ⟨(h3 t ht).1, ?_⟩⟩
  simp only [exF, List.mem_cons, List.not_mem_nil, or_false] at hf
  rcases hf with rfl | rfl <;> simp only [List.mem_cons, List.not_mem_nil, or_false] at ht <;>
    rcases ht with rfl | rfl <;> simp only <;> omega

example : ∃ tr G, Learn (stdCfg .drl 101 1) exF tr G :=
  (C66_learn (stdCfg_ok _ (by norm_num) (by norm_num) (by norm_num)) exF_ok).1 (by decide)

example {tr : Tr 2} {G : List (Poly 2)} (h : Learn (stdCfg .drl 101 1) exF tr G) : ∃ r, Apply (stdCfg .drl 103 7) exF tr r :=
  C66_total (C := stdCfg .drl 101 1) (C' := stdCfg .drl 103 7) (stdCfg_ok _ (by norm_num) (by norm_num) (by norm_num))
    (stdCfg_ok _ (by norm_num) (by norm_num) (by norm_num)) exF_ok (tr66_exF (by simp [stdCfg])) rfl h

example {tr : Tr 2} {G : List (Poly 2)} (h : Learn (stdCfg .drl 101 1) exF tr G) : Apply (stdCfg .drl 101 1) exF tr (some G) := by
  have hC := stdCfg_ok (n := 2) .drl (p := 101) (mnsel := 1) (by norm_num) (by norm_num) (by norm_num)
  obtain ⟨r, hr⟩ := C66_total hC hC exF_ok exF_ok rfl h
  rwa [C66_same hC exF_ok h hr] at hr

example : ∃ tr G G', Learn (stdCfg .drl 3 1) (trF 3 3) tr G ∧ Apply (stdCfg .drl 5 1) (trF 3 5) tr (some G') := by
  obtain ⟨⟨tr, G, h⟩, h2⟩ := C66_unlucky (C := stdCfg .drl 3 1) (C' := stdCfg .drl 5 1)
    (stdCfg_ok _ (by norm_num) (by norm_num) (by norm_num)) (stdCfg_ok _ (by norm_num) (by norm_num) (by norm_num)) rfl rfl
    (by simp [stdCfg]) (by simp [stdCfg])
  obtain ⟨⟨G', h'⟩, _⟩ := h2 tr G h
  exact ⟨tr, G, G', h, h'⟩

/-! Homogeneous input with a lucky first prime: `x^2 + 2 y^2`, `x y + y^2`, with initial monomials generated by
`x^2`, `x y`, `y^3` over every field in which three is not zero. -/

/-- The generators over the integers. -/
noncomputable def hom66 : Fin 2 → MvPolynomial (Fin 2) ℤ :=
  ![monomial (fs ![2, 0]) 1 + monomial (fs ![0, 2]) 2, monomial (fs ![1, 1]) 1 + monomial (fs ![0, 2]) 1]

theorem hom66_homogeneous (i : Fin 2) : (hom66 i).IsHomogeneous 2 := by
  have hd : ∀ u : Mon 2, u 0 + u 1 = 2 → ∀ c : ℤ, (monomial (fs u) c).IsHomogeneous 2 := by
    intro u hu c
    apply isHomogeneous_monomial
    rw [Finsupp.degree_eq_sum]
    simpa using hu
  fin_cases i
  · exact (hd ![2, 0] rfl 1).add (hd ![0, 2] rfl 2)
  · exact (hd ![1, 1] rfl 1).add (hd ![0, 2] rfl 1)

section
variable (K : Type*) [Field K]

/-- The Gröbner basis over a field. -/
noncomputable def gb66 : Fin 3 → MvPolynomial (Fin 2) K :=
  ![monomial (fs ![2, 0]) 1 + monomial (fs ![0, 2]) 2, monomial (fs ![1, 1]) 1 + monomial (fs ![0, 2]) 1,
    monomial (fs ![0, 3]) 1]

theorem gb66_degree (i : Fin 3) : (OKind.drl.mo (n := 2)).degree (gb66 K i) = fs (![![2, 0], ![1, 1], ![0, 3]] i) ∧
    (OKind.drl.mo (n := 2)).leadingCoeff (gb66 K i) = 1 := by
  classical
  have key : ∀ (u v : Mon 2) (c : K), Drl v u →
      (OKind.drl.mo (n := 2)).degree (monomial (fs u) (1 : K) + monomial (fs v) c) = fs u ∧
      (OKind.drl.mo (n := 2)).leadingCoeff (monomial (fs u) (1 : K) + monomial (fs v) c) = 1 := by
    intro u v c h
    have hd : (OKind.drl.mo (n := 2)).degree (monomial (fs u) (1 : K)) = fs u := by
      rw [MonomialOrder.degree_monomial, if_neg one_ne_zero]
    have hlt : (OKind.drl.mo (n := 2)).toSyn ((OKind.drl.mo (n := 2)).degree (monomial (fs v) c)) <
        (OKind.drl.mo (n := 2)).toSyn ((OKind.drl.mo (n := 2)).degree (monomial (fs u) (1 : K))) := by
      rw [hd]
      refine lt_of_le_of_lt (MonomialOrder.degree_monomial_le _) ?_
      exact h
    constructor
    · rw [MonomialOrder.degree_add_of_lt hlt, hd]
    · rw [MonomialOrder.leadingCoeff_add_of_lt hlt, MonomialOrder.leadingCoeff_monomial]
  fin_cases i
  · exact key ![2, 0] ![0, 2] 2 (by simp only [Drl, DrlOn]; decide)
  · exact key ![1, 1] ![0, 2] 1 (by simp only [Drl, DrlOn]; decide)
  · constructor
    · show (OKind.drl.mo (n := 2)).degree (monomial (fs ![0, 3]) (1 : K)) = _
      rw [MonomialOrder.degree_monomial, if_neg one_ne_zero]
      rfl
    · exact MonomialOrder.leadingCoeff_monomial _

theorem gb66_low (i : Fin 3) (a τ : Mon 2) (h : Drl (a + ![![2, 0], ![1, 1], ![0, 3]] i) τ) :
    monomial (fs a) 1 * gb66 K i ∈ Low (OKind.drl.mo (n := 2)) Set.univ (gb66 K) (fs τ) := by
  refine Submodule.subset_span ⟨i, trivial, fs a, rfl, ?_⟩
  rw [(gb66_degree K i).1, ← fs_add]
  exact h

theorem gb66_syz : monomial (fs ![0, 1]) 1 * gb66 K 0 - monomial (fs ![1, 0]) 1 * gb66 K 1 =
    (3 : K) • gb66 K 2 - monomial (fs ![0, 1]) 1 * gb66 K 1 := by
  have e1 : fs ![0, 1] + fs ![2, 0] = fs (![2, 1] : Mon 2) := by rw [← fs_add]; congr 1; decide
  have e2 : fs ![0, 1] + fs ![0, 2] = fs (![0, 3] : Mon 2) := by rw [← fs_add]; congr 1; decide
  have e3 : fs ![1, 0] + fs ![1, 1] = fs (![2, 1] : Mon 2) := by rw [← fs_add]; congr 1; decide
  have e4 : fs ![1, 0] + fs ![0, 2] = fs (![1, 2] : Mon 2) := by rw [← fs_add]; congr 1; decide
  have e5 : fs ![0, 1] + fs ![1, 1] = fs (![1, 2] : Mon 2) := by rw [← fs_add]; congr 1; decide
  show monomial (fs ![0, 1]) 1 * (monomial (fs ![2, 0]) 1 + monomial (fs ![0, 2]) 2) -
    monomial (fs ![1, 0]) 1 * (monomial (fs ![1, 1]) 1 + monomial (fs ![0, 2]) 1) =
    (3 : K) • monomial (fs ![0, 3]) 1 - monomial (fs ![0, 1]) 1 * (monomial (fs ![1, 1]) 1 + monomial (fs ![0, 2]) 1)
  simp only [mul_add, monomial_mul, one_mul, e1, e2, e3, e4, e5, smul_monomial, smul_eq_mul, mul_one]
  have : (monomial (fs ![0, 3]) (3 : K)) = monomial (fs (![0, 3] : Mon 2)) (2 : K) + monomial (fs ![0, 3]) 1 := by
    rw [← map_add]; norm_num
  rw [this]
  ring

theorem gb66_groebner : IsGroebner (OKind.drl.mo (n := 2)) (Ideal.span (gb66 K '' Set.univ)) (gb66 K '' Set.univ) := by
  refine buchberger (fun i _ => (gb66_degree K i).2) ?_
  have h01 : Rep (OKind.drl.mo (n := 2)) Set.univ (gb66 K) 0 1 := by
    unfold Rep
    rw [(gb66_degree K 0).1, (gb66_degree K 1).1, ← fs_sup, ← fs_sub, ← fs_sub]
    have e1 : ((![![2, 0], ![1, 1], ![0, 3]] : Fin 3 → Mon 2) 0 ⊔ (![![2, 0], ![1, 1], ![0, 3]] : Fin 3 → Mon 2) 1 : Mon 2) = ![2, 1] := by decide
    rw [e1]
    have e2 : (![2, 1] - (![![2, 0], ![1, 1], ![0, 3]] : Fin 3 → Mon 2) 0 : Mon 2) = ![0, 1] := by decide
    have e3 : (![2, 1] - (![![2, 0], ![1, 1], ![0, 3]] : Fin 3 → Mon 2) 1 : Mon 2) = ![1, 0] := by decide
    rw [e2, e3, gb66_syz]
    refine Submodule.sub_mem _ (Submodule.smul_mem _ _ ?_) ?_
    · have := gb66_low K 2 0 ![2, 1] (by simp only [Drl, DrlOn]; decide)
      rwa [fs_zero, show (monomial 0 (1 : K) : MvPolynomial (Fin 2) K) = 1 from rfl, one_mul] at this
    · exact gb66_low K 1 ![0, 1] ![2, 1] (by simp only [Drl, DrlOn]; decide)
  have h12 : Rep (OKind.drl.mo (n := 2)) Set.univ (gb66 K) 1 2 := by
    unfold Rep
    rw [(gb66_degree K 1).1, (gb66_degree K 2).1, ← fs_sup, ← fs_sub, ← fs_sub]
    have e1 : ((![![2, 0], ![1, 1], ![0, 3]] : Fin 3 → Mon 2) 1 ⊔ (![![2, 0], ![1, 1], ![0, 3]] : Fin 3 → Mon 2) 2 : Mon 2) = ![1, 3] := by decide
    rw [e1]
    have e2 : (![1, 3] - (![![2, 0], ![1, 1], ![0, 3]] : Fin 3 → Mon 2) 1 : Mon 2) = ![0, 2] := by decide
    have e3 : (![1, 3] - (![![2, 0], ![1, 1], ![0, 3]] : Fin 3 → Mon 2) 2 : Mon 2) = ![1, 0] := by decide
    rw [e2, e3]
    have : (X' (fs ![0, 2]) : MvPolynomial (Fin 2) K) * gb66 K 1 - X' (fs ![1, 0]) * gb66 K 2 = X' (fs ![0, 1]) * gb66 K 2 := by
      have a1 : fs ![0, 2] + fs ![1, 1] = fs (![1, 3] : Mon 2) := by rw [← fs_add]; congr 1; decide
      have a2 : fs ![0, 2] + fs ![0, 2] = fs (![0, 4] : Mon 2) := by rw [← fs_add]; congr 1; decide
      have a3 : fs ![1, 0] + fs ![0, 3] = fs (![1, 3] : Mon 2) := by rw [← fs_add]; congr 1; decide
      have a4 : fs ![0, 1] + fs ![0, 3] = fs (![0, 4] : Mon 2) := by rw [← fs_add]; congr 1; decide
      show X' (fs ![0, 2]) * (monomial (fs ![1, 1]) (1 : K) + monomial (fs ![0, 2]) 1) - X' (fs ![1, 0]) * monomial (fs ![0, 3]) 1 =
        X' (fs ![0, 1]) * monomial (fs ![0, 3]) 1
      simp only [mul_add, monomial_mul, one_mul, a1, a2, a3, a4]
      ring
    rw [this]
    exact gb66_low K 2 ![0, 1] ![1, 3] (by simp only [Drl, DrlOn]; decide)
  have h02 : Rep (OKind.drl.mo (n := 2)) Set.univ (gb66 K) 0 2 := by
    refine rep_coprime trivial trivial (gb66_degree K 0).2 (gb66_degree K 2).2 ?_
    rw [(gb66_degree K 0).1, (gb66_degree K 2).1, ← fs_sup, ← fs_add]
    congr 1
    decide
  intro i _ j _
  fin_cases i <;> fin_cases j
  · exact rep_self _
  · exact h01
  · exact h02
  · exact rep_symm h01
  · exact rep_self _
  · exact h12
  · exact rep_symm h02
  · exact rep_symm h12
  · exact rep_self _

variable {K}

theorem hom66_ideal (h3 : (3 : K) ≠ 0) : idealOver K hom66 = Ideal.span (gb66 K '' Set.univ) := by
  have m0 : MvPolynomial.map (Int.castRingHom K) (hom66 0) = gb66 K 0 := by
    show MvPolynomial.map (Int.castRingHom K) (monomial (fs ![2, 0]) 1 + monomial (fs ![0, 2]) 2) =
      monomial (fs ![2, 0]) 1 + monomial (fs ![0, 2]) 2
    simp
  have m1 : MvPolynomial.map (Int.castRingHom K) (hom66 1) = gb66 K 1 := by
    show MvPolynomial.map (Int.castRingHom K) (monomial (fs ![1, 1]) 1 + monomial (fs ![0, 2]) 1) =
      monomial (fs ![1, 1]) 1 + monomial (fs ![0, 2]) 1
    simp
  apply le_antisymm
  · unfold idealOver
    rw [Ideal.span_le]
    rintro _ ⟨i, rfl⟩
    fin_cases i
    · exact Ideal.subset_span ⟨0, trivial, m0.symm⟩
    · exact Ideal.subset_span ⟨1, trivial, m1.symm⟩
  · have i0 : gb66 K 0 ∈ idealOver K hom66 := Ideal.subset_span ⟨0, m0⟩
    have i1 : gb66 K 1 ∈ idealOver K hom66 := Ideal.subset_span ⟨1, m1⟩
    rw [Ideal.span_le]
    rintro _ ⟨i, -, rfl⟩
    fin_cases i
    · exact i0
    · exact i1
    · have := gb66_syz K
      rw [eq_comm, sub_eq_iff_eq_add] at this
      have h4 : gb66 K 2 = MvPolynomial.C (3 : K)⁻¹ * ((3 : K) • gb66 K 2) := by
        rw [← C_mul', ← mul_assoc, ← C_mul, inv_mul_cancel₀ h3, C_1, one_mul]
      show gb66 K 2 ∈ _
      rw [h4, this]
      exact Ideal.mul_mem_left _ _ (Ideal.add_mem _ (Ideal.sub_mem _ (Ideal.mul_mem_left _ _ i0) (Ideal.mul_mem_left _ _ i1))
        (Ideal.mul_mem_left _ _ i1))

theorem hom66_initials (h3 : (3 : K) ≠ 0) : initials (OKind.drl.mo (n := 2)) (idealOver K hom66) =
    { d | ∃ i : Fin 3, fs (![![2, 0], ![1, 1], ![0, 3]] i) ≤ d } := by
  rw [hom66_ideal h3, initials_of_groebner (gb66_groebner K)]
  ext d
  constructor
  · rintro ⟨_, ⟨i, -, rfl⟩, _, hle⟩
    rw [(gb66_degree K i).1] at hle
    exact ⟨i, hle⟩
  · rintro ⟨i, hle⟩
    refine ⟨_, ⟨i, trivial, rfl⟩, ne_zero_of_monic (m := OKind.drl.mo (n := 2)) (gb66_degree K i).2, ?_⟩
    rw [(gb66_degree K i).1]
    exact hle
end

theorem hom66_list (q : Nat) [Fact q.Prime] : idl q (trF 3 q) = idealOver (ZMod q) hom66 := by
  unfold idl idealOver
  congr 1
  ext g
  constructor
  · rintro ⟨f, hf, rfl⟩
    simp only [trF, List.mem_cons, List.not_mem_nil, or_false] at hf
    rcases hf with rfl | rfl
    · exact ⟨0, by simp [hom66, toMv]⟩
    · exact ⟨1, by simp [hom66, toMv]⟩
  · rintro ⟨i, rfl⟩
    fin_cases i
    · exact ⟨_, List.mem_cons_self, by simp [hom66, toMv]⟩
    · exact ⟨_, List.mem_cons_of_mem _ List.mem_cons_self, by simp [hom66, toMv]⟩

/-- First prime 101, application with 103. -/
example {tr : Tr 2} {G G' : List (Poly 2)} (h : Learn (stdCfg .drl 101 1) (trF 3 101) tr G)
    (h' : Apply (stdCfg .drl 103 1) (trF 3 103) tr (some G')) :
    have : Fact (Nat.Prime 103) := ⟨by norm_num⟩
    IsReducedGroebner (OKind.drl.mo (n := 2)) (idealOver (ZMod 103) hom66) { g | ∃ f ∈ G', g = toMv 103 f } := by
  have f1 : Fact (Nat.Prime 101) := ⟨by norm_num⟩
  have f2 : Fact (Nat.Prime 103) := ⟨by norm_num⟩
  refine (C66_homogeneous (C := stdCfg .drl 101 1) (C' := stdCfg .drl 103 1)
    (stdCfg_ok _ (by norm_num) (by norm_num) (by norm_num)) (stdCfg_ok _ (by norm_num) (by norm_num) (by norm_num)) rfl
    (trF_ok f1.out (by simp [stdCfg])) (trF_ok f2.out (by simp [stdCfg])) rfl hom66 (fun _ => 2) hom66_homogeneous h h'
    (hom66_list 101) (hom66_list 103) ?_).1
  refine (hom66_initials (K := ZMod 101) ?_).trans (hom66_initials (K := ℚ) (by norm_num)).symm
  intro h3
  have h4 := (ZMod.natCast_eq_zero_iff 3 101).mp (by exact_mod_cast h3)
  omega

end Verif.Props
