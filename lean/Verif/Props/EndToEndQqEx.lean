import Verif.Props.EndToEndQq
import Verif.Props.LiftGB

/-!
C79: complete executions over the rationals, with lucky primes and with an unlucky first prime.
-/
namespace Verif.Props
namespace EndToEndQq

open Verif.Orders Verif.Import Verif.Parse Verif.F4 Verif.Spec Verif.EndToEnd Verif.EndToEndQq Verif.Groebner Verif.LiftStore
open Verif.Lucky Verif.ElimField MvPolynomial
open Verif.Spec.Text (File FileOk ExpandedQ idealQ polyQ polyMod LuckyPrime)
open Verif.Props.EndToEnd (twoNames)

/-! ### The bases modulo primes -/

/-- `x y + y^2`, `x^2 + (a - 1) y^2` modulo `q`. -/
def wG (a q : ℕ) : List (Poly 2) := [[(![1, 1], 1), (![0, 2], 1)], [(![2, 0], 1), (![0, 2], (a - 1) % q)]]

/-- Elements of the ideal without `x^2` and `x y` have no terms of degree at most two. -/
theorem trF_low {a q : ℕ} {h : MvPolynomial (Fin 2) (ZMod q)} (hh : h ∈ idl q (trF a q)) (h1 : coeff (fs ![2, 0]) h = 0)
    (h2 : coeff (fs ![1, 1]) h = 0) (i j : ℕ) (hij : i + j ≤ 2) : coeff (fs ![i, j]) h = 0 := by
  have hset : { g | ∃ f ∈ trF a q, g = toMv q f } =
      {toMv q [(![2, 0], 1), (![0, 2], (a - 1) % q)], toMv q [(![1, 1], 1), (![0, 2], 1)]} := by
    ext g
    simp [trF]
  rw [idl, hset, Ideal.mem_span_pair] at hh
  obtain ⟨A, B, rfl⟩ := hh
  simp only [toMv_cons, toMv_nil, add_zero, mul_add, coeff_add, coeff_mul_monomial', fs_le, ← fs_sub] at h1 h2 ⊢
  have e0 : (![2, 0] : Pairs.Mon 2) - ![2, 0] = 0 := by decide
  have e1 : (![1, 1] : Pairs.Mon 2) - ![1, 1] = 0 := by decide
  rw [if_pos (by decide), if_neg (by decide), if_neg (by decide), if_neg (by decide), e0] at h1
  rw [if_neg (by decide), if_neg (by decide), if_pos (by decide), if_neg (by decide), e1] at h2
  have e2 : (![0, 2] : Pairs.Mon 2) - ![0, 2] = 0 := by decide
  simp only [Nat.cast_one, mul_one, add_zero, zero_add] at h1 h2
  have hi : i ≤ 2 := by omega
  have hj : j ≤ 2 := by omega
  interval_cases i <;> interval_cases j <;> first | omega | skip
  · rw [if_neg (by decide), if_neg (by decide), if_neg (by decide), if_neg (by decide)]; simp
  · rw [if_neg (by decide), if_neg (by decide), if_neg (by decide), if_neg (by decide)]; simp
  · rw [if_neg (by decide), if_pos (by decide), if_neg (by decide), if_pos (by decide), e2, h1, h2]; simp
  · rw [if_neg (by decide), if_neg (by decide), if_neg (by decide), if_neg (by decide)]; simp
  · rw [if_neg (by decide), if_neg (by decide), if_pos (by decide), if_neg (by decide), e1, h2]; simp
  · rw [if_pos (by decide), if_neg (by decide), if_neg (by decide), if_neg (by decide), e0, h1]; simp

/-- A reduced element of the ideal with the leading monomial of a generator is the generator. -/
theorem trF_unique {a q : ℕ} [hq : Fact q.Prime] {f g : Poly 2} (hf : f ∈ trF a q) (hfo : PolyOk .drl q f) (hg : PolyOk .drl q g)
    (hI : toMv q g ∈ idl q (trF a q)) (hl : F4.lead g = F4.lead f)
    (hr : ∀ t ∈ g, t.1 ≠ F4.lead g → ¬ ![2, 0] ≤ t.1 ∧ ¬ ![1, 1] ≤ t.1) : g = f := by
  apply toMv_injOn hg hfo
  rw [← sub_eq_zero]
  have hI' : toMv q g - toMv q f ∈ idl q (trF a q) := Ideal.sub_mem _ hI (Ideal.subset_span ⟨f, hf, rfl⟩)
  have hlead : F4.lead f = ![2, 0] ∨ F4.lead f = ![1, 1] := by
    have : F4.lead f ∈ (trF a q).map F4.lead := List.mem_map_of_mem hf
    rw [trF_leads] at this
    simpa using this
  have hone : ∀ {g : Poly 2}, PolyOk .drl q g → coeff (fs (F4.lead g)) (toMv q g) = 1 := by
    intro g hg
    have := toMv_coeff q g hg.sorted (F4.lead g, 1) hg.lead_mem
    simpa using this
  have hfr : ∀ t ∈ f, t.1 ≠ F4.lead f → ¬ ![2, 0] ≤ t.1 ∧ ¬ ![1, 1] ≤ t.1 := by
    simp only [trF, List.mem_cons, List.not_mem_nil, or_false] at hf
    intro t ht hne
    rcases hf with rfl | rfl <;> simp only [List.mem_cons, List.not_mem_nil, or_false] at ht <;> rcases ht with rfl | rfl
    · exact absurd rfl hne
    · exact ⟨fun h => absurd (h 0) (by simp), fun h => absurd (h 0) (by simp)⟩
    · exact absurd rfl hne
    · exact ⟨by decide, by decide⟩
  have hcl : ∀ u : Pairs.Mon 2, u = ![2, 0] ∨ u = ![1, 1] → coeff (fs u) (toMv q g - toMv q f) = 0 := by
    intro u hu
    rw [coeff_sub]
    by_cases hul : u = F4.lead f
    · subst hul
      rw [hone hfo, ← hl, hone hg, sub_self]
    · rw [toMv_coeff_zero, toMv_coeff_zero, sub_self]
      · rintro t ht rfl
        have := hfr t ht hul
        rcases hu with hu | hu <;> rw [hu] at this <;> simp at this
      · rintro t ht rfl
        have := hr t ht (by rwa [hl])
        rcases hu with hu | hu <;> rw [hu] at this <;> simp at this
  have hdeg : ∀ {g : Poly 2}, PolyOk .drl q g → (F4.lead g = ![2, 0] ∨ F4.lead g = ![1, 1]) → ∀ t ∈ g, t.1 0 + t.1 1 ≤ 2 := by
    intro g hg hl t ht
    have hs : F4.lead g 0 + F4.lead g 1 = 2 := by rcases hl with h | h <;> rw [h] <;> rfl
    obtain ⟨tl, hgt⟩ := hg.head
    rw [hgt] at ht
    rcases List.mem_cons.mp ht with rfl | ht
    · exact hs.le
    · have h1 := hg.sorted
      rw [hgt, List.map_cons, List.pairwise_cons] at h1
      have h2 := h1.1 _ (List.mem_map_of_mem ht)
      simp only [OKind.lt, Drl, DrlOn, Fin.sum_univ_two] at h2
      rcases h2 with h2 | ⟨h2, -⟩ <;> omega
  ext u
  obtain ⟨u, rfl⟩ := fs_surj u
  by_cases hu : u 0 + u 1 ≤ 2
  · have : u = ![u 0, u 1] := by
      funext i
      fin_cases i <;> rfl
    rw [this]
    exact trF_low hI' (hcl _ (Or.inl rfl)) (hcl _ (Or.inr rfl)) _ _ hu
  · rw [coeff_sub, toMv_coeff_zero, toMv_coeff_zero, sub_self]
    · rfl
    · rintro t ht rfl
      exact hu (hdeg hfo hlead t ht)
    · rintro t ht rfl
      exact hu (hdeg hg (by rwa [hl]) t ht)

theorem not_dvd_pred {p : ℕ} (hp : p.Prime) : ¬ p ∣ p - 1 := by
  intro h
  have h1 := hp.one_lt
  have := Nat.le_of_dvd (by omega) h
  omega

/-- The basis of the learning run. -/
theorem learn_trF {C : F4.Cfg 2} (hC : CfgOk C) (hO : C.ord = .drl) {tr : Tr 2} {G : List (Poly 2)}
    (h : Learn C (trF C.p C.p) tr G) : G = wG C.p C.p := by
  have : Fact C.p.Prime := ⟨hC.prime⟩
  have hF := trF_ok hC.prime (not_dvd_pred hC.prime)
  have hF' : ∀ f ∈ trF C.p C.p, PolyOk C.ord C.p f := by rwa [hO]
  obtain ⟨s, h1, h2, h3, h4, h5, h6⟩ := learn_final hC hF' h
  have hT := (trace_nil hC hF' (by rw [hO]; exact trF_groebner hF) h2).2
  obtain ⟨g1, g2, g3⟩ := (C66_learn hC hF').2 tr G h
  rw [hO] at g1 g2 g3
  have hinv := reach_inv hC hF' h1
  obtain ⟨L, hL, hlt, hmin, _⟩ := finalLmps_spec hinv
  rw [h4] at hL
  obtain rfl := Option.some.inj hL
  have hfin := finalL_ok hC hinv.ok hlt hmin h5
  -- every element of the basis is a generator
  have hsub : ∀ g ∈ G, g ∈ trF C.p C.p := by
    intro g hg
    obtain ⟨k, hk, e1, e2, e3, e4⟩ := hfin.mem g hg
    have hk' := hlt k hk
    have hf : s.els.getD k [] ∈ trF C.p C.p := by rw [← hT]; exact getD_mem hk'
    have hall : ∀ f ∈ trF C.p C.p, ∃ k ∈ tr.lmps, F4.lead (s.els.getD k []) ≤ F4.lead f := by
      intro f hf
      have hne := (hF f hf)
      obtain ⟨_, ⟨g', hg', rfl⟩, -, hle⟩ := g1.1.2 (toMv C.p f) (Ideal.subset_span ⟨f, hf, rfl⟩) (by
        intro h0
        have := hne.monic
        rw [h0, MonomialOrder.leadingCoeff_zero] at this
        exact zero_ne_one this)
      obtain ⟨k', hk', e1', -⟩ := hfin.mem g' hg'
      rw [(g2 g' hg').degree, hne.degree, fs_le, e1'] at hle
      exact ⟨k', hk', hle⟩
    have : g = s.els.getD k [] := by
      refine trF_unique (a := C.p) hf (hF _ hf) (g2 g hg) (by rw [← hT]; exact e3) e1 ?_
      intro t ht hne
      have e4 := (e4 t ht).resolve_left (by rwa [← e1])
      constructor
      · intro hle
        obtain ⟨k, hk, h⟩ := hall [(![2, 0], 1), (![0, 2], (C.p - 1) % C.p)] (by simp [trF])
        exact e4 k hk (le_trans h hle)
      · intro hle
        obtain ⟨k, hk, h⟩ := hall [(![1, 1], 1), (![0, 2], 1)] (by simp [trF])
        exact e4 k hk (le_trans h hle)
    rw [this]
    exact hf
  have hsup : ∀ f ∈ trF C.p C.p, f ∈ G := by
    intro f hf
    have hne := (hF f hf)
    obtain ⟨_, ⟨g', hg', rfl⟩, -, hle⟩ := g1.1.2 (toMv C.p f) (Ideal.subset_span ⟨f, hf, rfl⟩) (by
      intro h0
      have := hne.monic
      rw [h0, MonomialOrder.leadingCoeff_zero] at this
      exact zero_ne_one this)
    rw [(g2 g' hg').degree, hne.degree, fs_le] at hle
    have hgf := hsub g' hg'
    simp only [trF, List.mem_cons, List.not_mem_nil, or_false] at hf hgf
    rcases hf with rfl | rfl <;> rcases hgf with rfl | rfl
    · exact hg'
    · exact absurd (hle 1) (by simp [F4.lead])
    · exact absurd (hle 0) (by simp [F4.lead])
    · exact hg'
  have hadm := (OKind.drl).adm (n := 2)
  have hs : (wG C.p C.p).Pairwise fun a b => (OKind.drl).lt (F4.lead a) (F4.lead b) := by
    simp only [wG, List.pairwise_cons, List.mem_singleton, forall_eq, OKind.lt, Drl, DrlOn, F4.lead]
    refine ⟨by simp, by simp, List.Pairwise.nil⟩
  have hnd : ∀ {l : List (Poly 2)}, l.Pairwise (fun a b => (OKind.drl).lt (F4.lead a) (F4.lead b)) → l.Nodup := by
    intro l hl
    refine List.Pairwise.imp ?_ hl
    rintro a b hab rfl
    exact hadm.irrefl _ hab
  refine List.Perm.eq_of_pairwise (le := fun a b => (OKind.drl).lt (F4.lead a) (F4.lead b))
    (fun a b _ _ hab hba => absurd (hadm.trans _ _ _ hab hba) (hadm.irrefl _)) g3 hs ?_
  refine (List.perm_ext_iff_of_nodup (hnd g3) (hnd hs)).mpr fun f => ?_
  have hmem : f ∈ wG C.p C.p ↔ f ∈ trF C.p C.p := by simp only [wG, trF, List.mem_cons, List.not_mem_nil, or_false]; exact or_comm
  rw [hmem]
  exact ⟨hsub f, hsup f⟩

/-- The trace is accepted modulo every prime, and delivers the generators. -/
theorem apply_trF {C C' : F4.Cfg 2} (hC : CfgOk C) (hC' : CfgOk C') (hO : C.ord = .drl) (hO' : C'.ord = .drl) {a : ℕ}
    (ha : ¬ C'.p ∣ a - 1) {tr : Tr 2} {G : List (Poly 2)} (h : Learn C (trF C.p C.p) tr G) :
    Apply C' (trF a C'.p) tr (some (wG a C'.p)) := by
  have : Fact C.p.Prime := ⟨hC.prime⟩
  have : Fact C'.p.Prime := ⟨hC'.prime⟩
  have hF : ∀ f ∈ trF C.p C.p, PolyOk C.ord C.p f := by rw [hO]; exact trF_ok hC.prime (not_dvd_pred hC.prime)
  have hF2 := trF_ok hC'.prime ha
  have hF' : ∀ f ∈ trF a C'.p, PolyOk C'.ord C'.p f := by rwa [hO']
  have hl : (trF a C'.p).map F4.lead = (trF C.p C.p).map F4.lead := by rw [trF_leads, trF_leads]
  have hG := learn_trF hC hO h
  obtain ⟨r, hr⟩ := C66_total hC hC' hF hF' hl h
  have : ∃ G', r = some G' := by
    cases hr with
    | ok els G' _ _ => exact ⟨G', rfl⟩
    | bad hb =>
      exfalso
      obtain ⟨s, _, h2, _⟩ := learn_final hC hF h
      have hT := (trace_nil hC hF (by rw [hO]; exact trF_groebner (by rwa [← hO])) h2).1
      rw [Tr.rounds, if_pos hT] at hb
      cases hb with
      | bad hb => exact absurd (aRound_empty hC' hF' hb) (by simp)
      | step _ hb => cases hb
  obtain ⟨G', rfl⟩ := this
  obtain ⟨s1, s2⟩ := C66_sound hC hC' (hO'.trans hO.symm) hF hF' hl h hr
  rw [hG] at s1
  have hlen : G'.length = 2 := by simpa [wG] using congrArg List.length s1
  obtain ⟨g1, g2, rfl⟩ : ∃ g1 g2, G' = [g1, g2] := by
    match G', hlen with
    | [a, b], _ => exact ⟨a, b, rfl⟩
  simp only [wG, F4.lead, List.map_cons, List.map_nil, List.cons.injEq, and_true] at s1
  have l1 : F4.lead g1 = ![1, 1] := s1.1
  have l2 : F4.lead g2 = ![2, 0] := s1.2
  rw [hO] at s2
  have hred : ∀ g ∈ [g1, g2], ∀ t ∈ g, t.1 ≠ F4.lead g → ¬ ![2, 0] ≤ t.1 ∧ ¬ ![1, 1] ≤ t.1 := by
    intro g hg t ht hne
    have := (s2 g hg).2.2 t ht hne
    exact ⟨by rw [← l2]; exact this g2 (by simp), by rw [← l1]; exact this g1 (by simp)⟩
  have e1 : g1 = [(![1, 1], 1), (![0, 2], 1)] :=
    trF_unique (a := a) (by simp [trF]) (hF2 _ (by simp [trF])) (s2 g1 (by simp)).1 (s2 g1 (by simp)).2.1 l1 (hred g1 (by simp))
  have e2 : g2 = [(![2, 0], 1), (![0, 2], (a - 1) % C'.p)] :=
    trF_unique (a := a) (by simp [trF]) (hF2 _ (by simp [trF])) (s2 g2 (by simp)).1 (s2 g2 (by simp)).2.1 l2 (hred g2 (by simp))
  rw [e1, e2] at hr
  exact hr

/-! ### The primes -/

theorem nextPrime_eq {q p : ℕ} (h23 : 23 ≤ q) (hq : q ≤ 2147155980) (hp : p.Prime) (hlt : q < p)
    (hno : ∀ m, q < m → m < p → ¬ m.Prime) : Primes.nextPrime q = some p := by
  obtain ⟨p', e, h1, h2, h3⟩ := C06_next_prime q h23 hq
  rw [e]
  congr 1
  rcases lt_trichotomy p' p with h | h | h
  · exact absurd h1 (hno p' h2 h)
  · exact h
  · exact absurd (h3 p hp hlt) (by omega)

set_option maxRecDepth 100000 in
theorem prime_w0 : Nat.Prime 1073741827 := by norm_num
set_option maxRecDepth 100000 in
theorem prime_w1 : Nat.Prime 1073741831 := by norm_num
set_option maxRecDepth 100000 in
theorem prime_w2 : Nat.Prime 1073741833 := by norm_num
set_option maxRecDepth 100000 in
theorem prime_w3 : Nat.Prime 1073741839 := by norm_num
set_option maxRecDepth 100000 in
theorem prime_w4 : Nat.Prime 1073741843 := by norm_num

theorem next_w0 : Primes.nextPrime (2 ^ 30) = some 1073741827 :=
  nextPrime_eq (by norm_num) (by norm_num) prime_w0 (by norm_num) fun m h1 h2 => by
    norm_num at h1
    interval_cases m <;> norm_num
theorem next_w1 : Primes.nextPrime 1073741827 = some 1073741831 :=
  nextPrime_eq (by norm_num) (by norm_num) prime_w1 (by norm_num) fun m h1 h2 => by
    interval_cases m <;> norm_num
theorem next_w2 : Primes.nextPrime 1073741831 = some 1073741833 :=
  nextPrime_eq (by norm_num) (by norm_num) prime_w2 (by norm_num) fun m h1 h2 => by
    interval_cases m; norm_num
theorem next_w3 : Primes.nextPrime 1073741833 = some 1073741839 :=
  nextPrime_eq (by norm_num) (by norm_num) prime_w3 (by norm_num) fun m h1 h2 => by
    interval_cases m <;> norm_num
theorem next_w4 : Primes.nextPrime 1073741839 = some 1073741843 :=
  nextPrime_eq (by norm_num) (by norm_num) prime_w4 (by norm_num) fun m h1 h2 => by
    interval_cases m <;> norm_num

/-! ### The input -/

theorem import_sorted {m nev : ℕ} (hnev : nev < m) {ts : List Text.Mon} (hE : ExpandedQ m ts)
    (hs : ((intTerms m ts).map Prod.fst).Pairwise fun a b => (ordKind nev).lt b a) : ImportPolyQ m nev (qqPoly m ts) (intTerms m ts) := by
  obtain ⟨g, hg⟩ := importPolyQ_exists hnev hE
  obtain ⟨h1, h2⟩ := importPolyQ_spec hnev hE hg
  have hadm := (ordKind nev).adm (n := m)
  have : g = intTerms m ts := by
    rw [List.pairwise_map] at h2 hs
    refine List.Perm.eq_of_pairwise (le := fun a b : (Fin m → ℕ) × ℤ => (ordKind nev).lt b.1 a.1)
      (fun a b _ _ hab hba => absurd (hadm.trans _ _ _ hab hba) (hadm.irrefl _)) h2 hs h1
  rwa [this] at hg

/-- `x^2 + c y^2`, `x y + y^2`. -/
def wZ (c : ℤ) : List (List ((Fin (0 + 2) → ℕ) × ℤ)) := [[(![2, 0], 1), (![0, 2], c)], [(![1, 1], 1), (![0, 2], 1)]]

theorem wZ_sorted (c : ℤ) : ∀ z ∈ wZ c, (z.map Prod.fst).Pairwise fun a b => (ordKind 0).lt b a := by
  intro z hz
  simp only [wZ, List.mem_cons, List.not_mem_nil, or_false] at hz
  rcases hz with rfl | rfl <;>
  · simp only [ordKind, if_true, OKind.lt, Drl, DrlOn, List.map_cons, List.map_nil]
    decide

theorem input_w {tss : List (List Text.Mon)} {c : ℤ} (hE : ∀ ts ∈ tss, ExpandedQ (0 + 2) ts) (ht : tss.map (intTerms (0 + 2)) = wZ c)
    (hp : primitive (wZ c) = some (wZ c)) : Input 0 2 (tss.map (qqPoly (0 + 2))) (wZ c) := by
  refine ⟨wZ c, wZ c, ?_, .refl _, hp⟩
  rw [← ht, List.forall₂_map_left_iff, List.forall₂_map_right_iff, List.forall₂_same]
  intro ts hts
  refine import_sorted (by norm_num) (hE ts hts) (wZ_sorted c _ ?_)
  rw [← ht]
  exact List.mem_map_of_mem hts

/-- The part of an execution after F4. -/
def runLifted (G : List (Poly (0 + 2))) (p : ℕ) (gs : List ((ℕ × Option (List (Poly (0 + 2)))) × Bool)) : Option (Lifted 2) :=
  match enlarged (keptLeads (n := 2) 0 G) with
  | .done mb =>
    match storeAll 0 mb (lensOf (keptLeads 0 G) mb) 0 (kept 0 G) with
    | some cs =>
      match LiftGB.initSt (keptLeads (n := 2) 0 G).length (lensOf (keptLeads 0 G) mb) p (fun k l => cs.getD k (fun _ => 0) l),
          eventsOf 0 (keptLeads 0 G) mb (keepFree 0) gs with
      | some s0, some es =>
        match LiftGB.run exExt 1 es s0 0 0 with
        | .done s => some ⟨keptLeads 0 G, mb, s.npol, s.polys⟩
        | _ => none
      | _, _ => none
    | none => none
  | _ => none

theorem core_runLifted {Z : List (List ((Fin (0 + 2) → ℕ) × ℤ))} {p : ℕ} {tr : Tr (0 + 2)}
    {G : List (Poly (0 + 2))} {gs : List ((ℕ × Option (List (Poly (0 + 2)))) × Bool)} {b : Lifted 2} (h1 : FirstPrime Z p)
    (h2 : First 0 Z none p tr G) (h3 : ¬ (G.length = 1 ∧ F4.lead (G.getD 0 []) = 0)) (h4 : Later 0 Z tr p p gs)
    (h : runLifted G p gs = some b) : Core exExt 1 0 2 Z none (p :: gs.map fun g => g.1.1) (.printed b) := by
  unfold runLifted at h
  split at h <;> try cases h
  rename_i mb hmb
  split at h <;> try cases h
  rename_i cs hcs
  split at h <;> try cases h
  rename_i s0 es hs0 hes
  split at h <;> try cases h
  rename_i s hs
  exact .done h1 h2 h3 hmb hcs hs0 h4 hes hs

/-- The computation for these generators. -/
theorem core_w {c : ℤ} (a : ℕ → ℕ) (p0 : ℕ) (h0 : FirstPrime (wZ c) p0)
    (hm0 : modGens p0 (wZ c) = some (trF p0 p0)) (qs : List ℕ) (hqs : ∀ q ∈ qs, modGens q (wZ c) = some (trF (a q) q) ∧ ¬ q ∣ a q - 1)
    (hnext : List.IsChain (NextGood (wZ c) p0) (p0 :: qs)) {b : Lifted 2}
    (h : runLifted (wG p0 p0) p0 (qs.map fun q => ((q, some (wG (a q) q)), false)) = some b) :
    Core exExt 1 0 2 (wZ c) none (p0 :: qs) (.printed b) := by
  obtain ⟨hR, -⟩ := firstPrime_spec h0
  have hcfg : ∀ q, Range q → CfgOk (stdCfg (n := 2) .drl q 1) := fun q hq => stdCfg_ok _ hq.1 hq.lt31 one_pos
  have hsort : ∀ q, Range q → Sorts (stdCfg (n := 2) .drl q 1) := fun q hq =>
    ⟨(hcfg q hq).mnsel, (hcfg q hq).upd, (hcfg q hq).sel, (hcfg q hq).sorted⟩
  have : Fact p0.Prime := ⟨hR.1⟩
  obtain ⟨tr, G, hL⟩ := (C66_learn (hcfg p0 hR) (F := trF p0 p0) (trF_ok hR.1 (not_dvd_pred hR.1))).1 (by simp [trF])
  have hG : G = wG p0 p0 := learn_trF (hcfg p0 hR) rfl hL
  subst hG
  have hlater : ∀ (qs : List ℕ) (q0 : ℕ), Range q0 → (∀ q ∈ qs, modGens q (wZ c) = some (trF (a q) q) ∧ ¬ q ∣ a q - 1) →
      List.IsChain (NextGood (wZ c) p0) (q0 :: qs) →
      Later 0 (wZ c) tr p0 q0 (qs.map fun q => ((q, some (wG (a q) q)), false)) := by
    intro qs
    induction qs with
    | nil => intro q0 _ _ _; exact .nil _
    | cons q qs ih =>
      intro q0 hq0 hqs hch
      obtain ⟨c1, c2⟩ := List.isChain_cons_cons.mp hch
      obtain ⟨hq, -⟩ := nextGood_spec c1 hq0
      obtain ⟨m1, m2⟩ := hqs q List.mem_cons_self
      refine .cons c1 ⟨stdCfg .drl q 1, trF (a q) q, m1, rfl, rfl, hsort q hq, ?_⟩
        (ih q hq (fun q hq => hqs q (List.mem_cons_of_mem _ hq)) c2)
      exact apply_trF (hcfg p0 hR) (hcfg q hq) rfl rfl m2 hL
  have := core_runLifted h0 ⟨stdCfg .drl p0 1, trF p0 p0, hm0, rfl, rfl, hsort p0 hR, hL⟩ (by simp [wG]) (hlater qs p0 hR hqs hnext) h
  rwa [List.map_map, show ((fun g : (ℕ × Option (List (Poly (0 + 2)))) × Bool => g.1.1) ∘ fun q => ((q, some (wG (a q) q)), false)) = id from rfl,
    List.map_id] at this

/-- An execution for these generators. -/
theorem run_w {f : File} {tss : List (List Text.Mon)} (hok : InputOkQ f twoNames tss) {c : ℤ} (ht : tss.map (intTerms (0 + 2)) = wZ c)
    (hp : primitive (wZ c) = some (wZ c)) (a : ℕ → ℕ) (p0 : ℕ) (h0 : FirstPrime (wZ c) p0)
    (hm0 : modGens p0 (wZ c) = some (trF p0 p0)) (qs : List ℕ) (hqs : ∀ q ∈ qs, modGens q (wZ c) = some (trF (a q) q) ∧ ¬ q ∣ a q - 1)
    (hnext : List.IsChain (NextGood (wZ c) p0) (p0 :: qs)) {out : List Char}
    (h : (runLifted (wG p0 p0) p0 (qs.map fun q => ((q, some (wG (a q) q)), false))).map (printLifted twoNames 0) = some out) :
    Run exExt 1 0 2 f.text (p0 :: qs) (.printed out) := by
  obtain ⟨b, hb, rfl⟩ := Option.map_eq_some_iff.mp h
  refine ⟨twoNames, _, read_fileQ hok.file, rfl, by norm_num, ?_⟩
  rw [import_allQ hok.file.polys hok.expanded]
  exact ⟨wZ c, .printed b, input_w hok.expanded ht hp, core_w a p0 h0 hm0 qs hqs hnext hb, rfl⟩

/-! ### Lucky primes -/

/-- `x^2 - y^2`, `x y + y^2`. -/
def wTermsB : List (List Text.Mon) :=
  [[⟨false, none, [⟨0, some ['2']⟩]⟩, ⟨true, none, [⟨1, some ['2']⟩]⟩],
   [⟨false, none, [⟨0, none⟩, ⟨1, none⟩]⟩, ⟨false, none, [⟨1, some ['2']⟩]⟩]]
def wFileB : File := ⟨twoNames, ['0'], ["x^2-y^2".toList, "x*y+y^2".toList], ['\n']⟩

example : wFileB.text = "x,y\n0\nx^2-y^2,\nx*y+y^2\n".toList := by decide +kernel

/-- `x^2 + 1073741826 y^2`, `x y + y^2`. -/
def wTermsA : List (List Text.Mon) :=
  [[⟨false, none, [⟨0, some ['2']⟩]⟩, ⟨false, some ⟨"1073741826".toList, none⟩, [⟨1, some ['2']⟩]⟩],
   [⟨false, none, [⟨0, none⟩, ⟨1, none⟩]⟩, ⟨false, none, [⟨1, some ['2']⟩]⟩]]
def wFileA : File := ⟨twoNames, ['0'], ["x^2+1073741826*y^2".toList, "x*y+y^2".toList], ['\n']⟩

example : wFileA.text = "x,y\n0\nx^2+1073741826*y^2,\nx*y+y^2\n".toList := by decide +kernel

theorem wFile_ok {f : File} {tss : List (List Text.Mon)} (hf : f.names = twoNames) (hc : f.char = ['0']) (hfin : f.fin = ['\n'])
    (hne : tss ≠ []) (hsp : List.Forall₂ (fun s ts => Text.Spaced s (Text.line twoNames ts)) f.polys tss)
    (h1 : ∀ ts ∈ tss, ts ≠ []) (h2 : ∀ ts ∈ tss, ∀ t ∈ ts, (t.num ≠ none ∨ t.fs ≠ []) ∧
          (∀ a ∈ t.num, (a.n ≠ [] ∧ ∀ c ∈ a.n, c.isDigit = true) ∧ a.d = none) ∧ (∀ f ∈ t.fs, f.v < twoNames.length) ∧
          (∀ f ∈ t.fs, ∀ ds ∈ f.e, (ds ≠ [] ∧ ∀ c ∈ ds, c.isDigit = true) ∧ Text.dec ds < 2 ^ 31) ∧ (t.fs.map (·.v)).Nodup)
    (h3 : ∀ ts ∈ tss, ∀ t ∈ ts, Text.Fits twoNames t)
    (h4 : ∀ ts ∈ tss, (∀ t ∈ ts, t.numer ≠ 0) ∧ (∀ t ∈ ts, t.denom ≠ 0) ∧ (ts.map (Text.Mon.vec 2)).Nodup ∧
      ∀ t ∈ ts, ∑ i, t.vec 2 i < 65536) : InputOkQ f twoNames tss where
  file := by
    refine ⟨?_, by decide, by decide, ?_, ?_, ⟨['0'], [], ?_, ⟨by decide, by decide⟩, by decide, by simp⟩, by decide, hne, hsp,
      ?_, h1, ?_, h3⟩
    · have h : ∀ nm ∈ twoNames, nm ≠ [] ∧ (∀ c ∈ nm.head?, c.isDigit = false) ∧
          ∀ c ∈ nm, c ∉ ['*', '^', '+', '-', ','] ∧ Text.isSpace c = false := by decide
      exact fun nm hm => ⟨(h nm hm).1, fun c l hcl => (h nm hm).2.1 c (by rw [hcl]; rfl), (h nm hm).2.2⟩
    · rw [hf]
      exact .cons ⟨[], [], rfl, by simp, by simp⟩ (.cons ⟨[], [], rfl, by simp, by simp⟩ .nil)
    · rw [hf]
      decide
    · rw [hc]
      rfl
    · rw [hfin]
      decide
    · intro ts hts t ht
      obtain ⟨h1, h2, h3, h4, h5⟩ := h2 ts hts t ht
      exact ⟨h1, fun a ha => ⟨(h2 a ha).1, fun d hd => absurd hd (by rw [(h2 a ha).2]; simp)⟩, h3, h4, h5⟩
  expanded := fun ts hts => ⟨(h4 ts hts).1, (h4 ts hts).2.1, (h4 ts hts).2.2.1, (h4 ts hts).2.2.2⟩

theorem wFileA_ok : InputOkQ wFileA twoNames wTermsA :=
  wFile_ok rfl rfl rfl (by decide)
    (.cons ⟨by decide +kernel, by decide +kernel, by decide +kernel⟩ (.cons ⟨by decide +kernel, by decide +kernel, by decide +kernel⟩ .nil))
    (by decide) (by decide +kernel) (by unfold Text.Fits; decide +kernel) (by decide +kernel)

theorem wFileB_ok : InputOkQ wFileB twoNames wTermsB :=
  wFile_ok rfl rfl rfl (by decide)
    (.cons ⟨by decide +kernel, by decide +kernel, by decide +kernel⟩ (.cons ⟨by decide +kernel, by decide +kernel, by decide +kernel⟩ .nil))
    (by decide) (by decide +kernel) (by unfold Text.Fits; decide +kernel) (by decide +kernel)

/-- The output of both executions, except for the second coefficient of the second polynomial. -/
def wOut (c : String) : List Char := ("#Reduced Groebner basis data\n#---\n#field characteristic: 0\n" ++
  "#variable order:       x, y\n#monomial order:       graded reverse lexicographical\n" ++
  "#length of basis:      2 elements sorted by increasing leading monomials\n#---\n[x*y+y^2, \nx^2" ++ c ++ "*y^2\n]:\n").toList

theorem run_A : Run exExt 1 0 2 wFileA.text [1073741827, 1073741831, 1073741833, 1073741839, 1073741843] (.printed (wOut "+1073741826")) := by
  refine run_w wFileA_ok (c := 1073741826) (by decide +kernel) (by decide +kernel) (fun _ => 1073741827) 1073741827
    ⟨2 ^ 30, le_rfl, by norm_num, next_w0, by decide +kernel⟩ (by decide +kernel) [1073741831, 1073741833, 1073741839, 1073741843] ?_ ?_
    (by decide +kernel)
  · decide +kernel
  · refine .cons_cons (.here ?_ (by decide +kernel) (by norm_num)) (.cons_cons (.here ?_ (by decide +kernel) (by norm_num))
      (.cons_cons (.here ?_ (by decide +kernel) (by norm_num)) (.cons_cons (.here ?_ (by decide +kernel) (by norm_num)) (.singleton _))))
    · rw [stepPrime, next_w1]; rfl
    · rw [stepPrime, next_w2]; rfl
    · rw [stepPrime, next_w3]; rfl
    · rw [stepPrime, next_w4]; rfl

theorem run_B : Run exExt 1 0 2 wFileB.text [1073741827, 1073741831, 1073741833, 1073741839] (.printed (wOut "-1")) := by
  refine run_w wFileB_ok (c := -1) (by decide +kernel) (by decide +kernel) id 1073741827
    ⟨2 ^ 30, le_rfl, by norm_num, next_w0, by decide +kernel⟩ (by decide +kernel) [1073741831, 1073741833, 1073741839] ?_ ?_
    (by decide +kernel)
  · decide +kernel
  · refine .cons_cons (.here ?_ (by decide +kernel) (by norm_num)) (.cons_cons (.here ?_ (by decide +kernel) (by norm_num))
      (.cons_cons (.here ?_ (by decide +kernel) (by norm_num)) (.singleton _)))
    · rw [stepPrime, next_w1]; rfl
    · rw [stepPrime, next_w2]; rfl
    · rw [stepPrime, next_w3]; rfl

/-! ### Luck -/

section
variable (K : Type*) [Field K]

/-- `x^2 + c y^2` and `x y + y^2`. -/
noncomputable def wPoly (c : ℤ) : ℕ → MvPolynomial (Fin 2) K
  | 0 => monomial (fs ![2, 0]) 1 + monomial (fs ![0, 2]) (c : K)
  | _ => monomial (fs ![1, 1]) 1 + monomial (fs ![0, 2]) 1

theorem drl_y2_x2 : OKind.drl.mo.toSyn (fs (![0, 2] : Pairs.Mon 2)) < OKind.drl.mo.toSyn (fs ![2, 0]) := by
  rw [lt_iff]
  simp only [OKind.lt, Drl, DrlOn]
  decide

theorem drl_y2_xy : OKind.drl.mo.toSyn (fs (![0, 2] : Pairs.Mon 2)) < OKind.drl.mo.toSyn (fs ![1, 1]) := by
  rw [lt_iff]
  simp only [OKind.lt, Drl, DrlOn]
  decide

theorem two_degree {u v : Fin 2 →₀ ℕ} (h : OKind.drl.mo.toSyn v < OKind.drl.mo.toSyn u) (c : K) :
    OKind.drl.mo.degree (monomial u (1 : K) + monomial v c) = u ∧
      OKind.drl.mo.leadingCoeff (monomial u (1 : K) + monomial v c) = 1 := by
  classical
  have h1 : OKind.drl.mo.degree (monomial u (1 : K)) = u := by rw [MonomialOrder.degree_monomial, if_neg one_ne_zero]
  have h2 : OKind.drl.mo.toSyn (OKind.drl.mo.degree (monomial v c)) < OKind.drl.mo.toSyn (OKind.drl.mo.degree (monomial u (1 : K))) := by
    rw [h1]
    exact lt_of_le_of_lt (MonomialOrder.degree_monomial_le c) h
  have h3 := MonomialOrder.degree_add_of_lt h2
  refine ⟨h3.trans h1, ?_⟩
  rw [MonomialOrder.leadingCoeff_add_of_lt h2, MonomialOrder.leadingCoeff_monomial]

theorem wPoly_degree (c : ℤ) : OKind.drl.mo.degree (wPoly K c 0) = fs ![2, 0] ∧ OKind.drl.mo.degree (wPoly K c 1) = fs ![1, 1] ∧
    OKind.drl.mo.leadingCoeff (wPoly K c 0) = 1 ∧ OKind.drl.mo.leadingCoeff (wPoly K c 1) = 1 :=
  ⟨(two_degree K drl_y2_x2 _).1, (two_degree K drl_y2_xy _).1, (two_degree K drl_y2_x2 _).2, (two_degree K drl_y2_xy _).2⟩

theorem wPoly_syz (c : ℤ) : (monomial (fs ![0, 1]) 1 : MvPolynomial (Fin 2) K) * wPoly K c 0 - monomial (fs ![1, 0]) 1 * wPoly K c 1 =
    monomial (fs ![0, 3]) ((c + 1 : ℤ) : K) - monomial (fs ![0, 1]) 1 * wPoly K c 1 := by
  have e1 : fs ![0, 1] + fs ![2, 0] = fs (![2, 1] : Pairs.Mon 2) := by rw [← fs_add]; congr 1; decide
  have e2 : fs ![0, 1] + fs ![0, 2] = fs (![0, 3] : Pairs.Mon 2) := by rw [← fs_add]; congr 1; decide
  have e3 : fs ![1, 0] + fs ![1, 1] = fs (![2, 1] : Pairs.Mon 2) := by rw [← fs_add]; congr 1; decide
  have e4 : fs ![1, 0] + fs ![0, 2] = fs (![1, 2] : Pairs.Mon 2) := by rw [← fs_add]; congr 1; decide
  have e5 : fs ![0, 1] + fs ![1, 1] = fs (![1, 2] : Pairs.Mon 2) := by rw [← fs_add]; congr 1; decide
  simp only [wPoly, mul_add, monomial_mul, one_mul, mul_one, e1, e2, e3, e4, e5, Int.cast_add, Int.cast_one, map_add]
  ring

theorem wPoly_groebner : IsReducedGroebner OKind.drl.mo (Ideal.span {wPoly K (-1) 0, wPoly K (-1) 1}) {wPoly K (-1) 0, wPoly K (-1) 1} := by
  obtain ⟨d0, d1, l0, l1⟩ := wPoly_degree K (-1)
  have himg : (wPoly K (-1)) '' {i | i < 2} = {wPoly K (-1) 0, wPoly K (-1) 1} := by
    ext g
    constructor
    · rintro ⟨i, hi, rfl⟩
      have hi : i < 2 := hi
      interval_cases i
      · exact Or.inl rfl
      · exact Or.inr rfl
    · rintro (rfl | rfl)
      · exact ⟨0, by simp, rfl⟩
      · exact ⟨1, by simp, rfl⟩
  refine ⟨?_, ?_, ?_⟩
  · rw [← himg]
    have key : Rep (OKind.drl.mo (n := 2)) {i | i < 2} (wPoly K (-1)) 0 1 := by
      unfold Rep
      rw [d0, d1, ← fs_sup, ← fs_sub, ← fs_sub]
      have e1 : (![2, 0] ⊔ ![1, 1] : Pairs.Mon 2) = ![2, 1] := by decide
      rw [e1]
      have e2 : (![2, 1] - ![2, 0] : Pairs.Mon 2) = ![0, 1] := by decide
      have e3 : (![2, 1] - ![1, 1] : Pairs.Mon 2) = ![1, 0] := by decide
      rw [e2, e3]
      have := wPoly_syz K (-1)
      rw [show ((-1 + 1 : ℤ) : K) = 0 by simp, map_zero, zero_sub] at this
      refine this ▸ Submodule.neg_mem _ (Submodule.subset_span ⟨1, ?_, fs ![0, 1], rfl, ?_⟩)
      · simp
      · rw [d1, ← fs_add, lt_iff]
        simp only [OKind.lt, Drl, DrlOn]
        decide
    refine buchberger ?_ ?_
    · intro i hi
      have hi : i < 2 := hi
      interval_cases i
      · exact l0
      · exact l1
    · intro i hi j hj
      have hi' : i < 2 := hi
      have hj' : j < 2 := hj
      interval_cases i <;> interval_cases j
      · exact rep_self _
      · exact key
      · exact rep_symm key
      · exact rep_self _
  · rintro g (rfl | rfl)
    · exact l0
    · exact l1
  · have hsup : ∀ (a b : Pairs.Mon 2) (r s : K) (u : Fin 2 →₀ ℕ), u ∈ (monomial (fs a) r + monomial (fs b) s).support → u = fs a ∨ u = fs b := by
      classical
      intro a b r s u hu
      rw [mem_support_iff, coeff_add, coeff_monomial, coeff_monomial] at hu
      by_contra hno
      push Not at hno
      exact hu (by rw [if_neg (Ne.symm hno.1), if_neg (Ne.symm hno.2), add_zero])
    rintro g (rfl | rfl) g' (rfl | rfl) hne u hu
    · exact absurd rfl hne
    · rw [d1]
      rcases hsup _ _ _ _ u hu with rfl | rfl <;> rw [fs_le] <;> decide
    · rw [d0]
      rcases hsup _ _ _ _ u hu with rfl | rfl <;> rw [fs_le] <;> decide
    · exact absurd rfl hne

end

theorem wPoly_map (c : ℤ) (i : ℕ) : ∃ P : MvPolynomial (Fin 2) ℤ, ∀ (K : Type) [Field K],
    MvPolynomial.map (Int.castRingHom K) P = wPoly K c i := by
  cases i with
  | zero =>
    refine ⟨monomial (fs ![2, 0]) 1 + monomial (fs ![0, 2]) c, ?_⟩
    intro K _
    simp [wPoly, map_monomial]
  | succ i =>
    refine ⟨monomial (fs ![1, 1]) 1 + monomial (fs ![0, 2]) 1, ?_⟩
    intro K _
    simp [wPoly, map_monomial]

theorem wTermsB_polys (K : Type) [Field K] : { q : MvPolynomial (Fin 2) K | ∃ ts ∈ wTermsB, q = (ts.map fun t : Text.Mon =>
      monomial (Finsupp.equivFunOnFinite.symm (t.vec 2)) ((t.numer : K) / (t.denom : K))).sum } = {wPoly K (-1) 0, wPoly K (-1) 1} := by
  have v1 : (Text.Mon.vec 2 ⟨false, none, [⟨0, some ['2']⟩]⟩) = ![2, 0] := by decide +kernel
  have v2 : (Text.Mon.vec 2 ⟨true, none, [⟨1, some ['2']⟩]⟩) = ![0, 2] := by decide +kernel
  have v3 : (Text.Mon.vec 2 ⟨false, none, [⟨0, none⟩, ⟨1, none⟩]⟩) = ![1, 1] := by decide +kernel
  have v4 : (Text.Mon.vec 2 ⟨false, none, [⟨1, some ['2']⟩]⟩) = ![0, 2] := by decide +kernel
  ext q
  simp only [wTermsB, List.mem_cons, List.not_mem_nil, or_false, exists_eq_or_imp, exists_eq_left, List.map_cons, List.map_nil,
    List.sum_cons, List.sum_nil, v1, v2, v3, v4, Set.mem_ofPred_eq, Set.mem_insert_iff, Set.mem_singleton_iff, wPoly, fs]
  simp [Text.Mon.numer, Text.Mon.denom]

/-- All primes are lucky for `x^2 - y^2`, `x y + y^2`. -/
theorem lucky_B (p : ℕ) : LuckyPrime (n := 0 + 2) (OKind.be 0).mo wTermsB p := by
  intro hp
  have hc : ∀ ts ∈ wTermsB, ∀ t ∈ ts, (t.numer = 1 ∨ t.numer = -1) ∧ t.denom = 1 := by decide +kernel
  have hp1 : ¬ (p : ℤ) ∣ 1 := fun h => hp.out.one_lt.ne' (by exact_mod_cast Int.eq_one_of_dvd_one (Int.natCast_nonneg p) h)
  have hmo : (OKind.be 0).mo (n := 2) = OKind.drl.mo := (ordKind_mo 0).symm
  refine ⟨?_, ?_⟩
  · intro ts hts t ht
    obtain ⟨h1, h2⟩ := hc ts hts t ht
    refine ⟨?_, by rwa [h2]⟩
    rcases h1 with h1 | h1 <;> rw [h1]
    · exact hp1
    · rwa [dvd_neg]
  · intro G hG
    replace hG : IsReducedGroebner (n := 2) (OKind.be 0).mo (idealQ 2 wTermsB) G := hG
    rw [hmo] at hG
    have hI : idealQ 2 wTermsB = Ideal.span {wPoly ℚ (-1) 0, wPoly ℚ (-1) 1} := by
      rw [← wTermsB_polys ℚ]
      rfl
    rw [hI] at hG
    obtain rfl := reduced_unique (wPoly_groebner ℚ) hG
    obtain ⟨P0, h0⟩ := wPoly_map (-1) 0
    obtain ⟨P1, h1⟩ := wPoly_map (-1) 1
    have hint : ∀ P : MvPolynomial (Fin 2) ℤ, IntegralAt p (MvPolynomial.map (Int.castRingHom ℚ) P) := by
      intro P u
      rw [coeff_map, eq_intCast, Rat.den_intCast]
      exact hp.out.one_lt.ne' ∘ Nat.dvd_one.mp
    constructor
    · rintro g (rfl | rfl)
      · rw [← h0]; exact hint P0
      · rw [← h1]; exact hint P1
    · have himg : reduceMod p '' {wPoly ℚ (-1) 0, wPoly ℚ (-1) 1} = {wPoly (ZMod p) (-1) 0, wPoly (ZMod p) (-1) 1} := by
        rw [Set.image_pair, ← h0, ← h1, reduceMod_int, reduceMod_int, h0, h1]
      have := wPoly_groebner (ZMod p)
      rw [← himg, ← hmo] at this
      have hI : Ideal.span { q | ∃ ts ∈ wTermsB, q = polyMod p 2 ts } = Ideal.span (reduceMod p '' {wPoly ℚ (-1) 0, wPoly ℚ (-1) 1}) := by
        rw [himg, ← wTermsB_polys (ZMod p)]
        rfl
      rw [← hI] at this
      exact this

/-- The hypotheses of `C79_basis` are met, by an execution that prints. -/
example : InputOkQ wFileB twoNames wTermsB ∧ CRT.InvSpec exExt.inv ∧ LiftGB.McrtSpec exExt.mcrt ∧
    Run exExt 1 0 2 wFileB.text [1073741827, 1073741831, 1073741833, 1073741839] (.printed (wOut "-1")) ∧
    (∀ p ∈ [1073741827, 1073741831, 1073741833, 1073741839], LuckyPrime (n := 0 + 2) (OKind.be 0).mo wTermsB p) ∧
    [1073741827, 1073741831, 1073741833, 1073741839].Nodup :=
  ⟨wFileB_ok, exExt_inv, exExt_mcrt, run_B, fun p _ => lucky_B p, by decide⟩

theorem wTermsA_polys : { b | ∃ ts ∈ wTermsA, b = polyQ 2 ts } = {wPoly ℚ 1073741826 0, wPoly ℚ 1073741826 1} := by
  have v1 : (Text.Mon.vec 2 ⟨false, none, [⟨0, some ['2']⟩]⟩) = ![2, 0] := by decide +kernel
  have v2 : (Text.Mon.vec 2 ⟨false, some ⟨"1073741826".toList, none⟩, [⟨1, some ['2']⟩]⟩) = ![0, 2] := by decide +kernel
  have v3 : (Text.Mon.vec 2 ⟨false, none, [⟨0, none⟩, ⟨1, none⟩]⟩) = ![1, 1] := by decide +kernel
  have v4 : (Text.Mon.vec 2 ⟨false, none, [⟨1, some ['2']⟩]⟩) = ![0, 2] := by decide +kernel
  have n1 : (Text.Mon.numer ⟨false, none, [⟨0, some ['2']⟩]⟩) = 1 := by decide +kernel
  have n2 : (Text.Mon.numer ⟨false, some ⟨"1073741826".toList, none⟩, [⟨1, some ['2']⟩]⟩) = 1073741826 := by decide +kernel
  have n3 : (Text.Mon.numer ⟨false, none, [⟨0, none⟩, ⟨1, none⟩]⟩) = 1 := by decide +kernel
  have n4 : (Text.Mon.numer ⟨false, none, [⟨1, some ['2']⟩]⟩) = 1 := by decide +kernel
  ext q
  simp only [wTermsA, List.mem_cons, List.not_mem_nil, or_false, exists_eq_or_imp, exists_eq_left, polyQ, List.map_cons, List.map_nil,
    List.sum_cons, List.sum_nil, Text.Mon.polyQ, v1, v2, v3, v4, n1, n2, n3, n4, Set.mem_ofPred_eq, Set.mem_insert_iff,
    Set.mem_singleton_iff, wPoly, fs]
  simp [Text.Mon.denom]

/-- `y^3` is in the ideal. -/
theorem wTermsA_cube : (monomial (fs ![0, 3]) ((1073741826 + 1 : ℤ) : ℚ) : MvPolynomial (Fin 2) ℚ) ∈ idealQ 2 wTermsA := by
  rw [idealQ, wTermsA_polys]
  have := wPoly_syz ℚ 1073741826
  rw [eq_comm, sub_eq_iff_eq_add] at this
  rw [this]
  refine Ideal.add_mem _ (Ideal.sub_mem _ ?_ ?_) ?_
  · exact Ideal.mul_mem_left _ _ (Ideal.subset_span (Or.inl rfl))
  · exact Ideal.mul_mem_left _ _ (Ideal.subset_span (Or.inr rfl))
  · exact Ideal.mul_mem_left _ _ (Ideal.subset_span (Or.inr rfl))

/-- **C79**: if the first prime is not lucky, what is printed need not be a Gröbner basis, though all further primes are accepted:
for `x^2 + 1073741826 y^2`, `x y + y^2` and the first prime `2^30 + 3` the input is printed, and `y^3` is missing. -/
theorem C79_unlucky : InputOkQ wFileA twoNames wTermsA ∧
    ∃ (us : List ℕ) (out : List Char) (tls : List (List Text.Mon)), us.Nodup ∧ Run exExt 1 0 2 wFileA.text us (.printed out) ∧
      out = Text.basisHeader twoNames 2 ++ basisText (tls.map (Text.line twoNames)) ∧
      ¬ IsGroebner OKind.drl.mo (idealQ 2 wTermsA) { b | ∃ ts ∈ tls, b = polyQ 2 ts } := by
  refine ⟨wFileA_ok, _, _, wTermsA.reverse, ?_, run_A, by decide +kernel, ?_⟩
  · decide
  have hset' : { b | ∃ ts ∈ wTermsA.reverse, b = polyQ 2 ts } = {wPoly ℚ 1073741826 0, wPoly ℚ 1073741826 1} := by
    rw [← wTermsA_polys]
    simp only [List.mem_reverse]
  rw [hset']
  intro hG
  obtain ⟨d0, d1, -, -⟩ := wPoly_degree ℚ 1073741826
  have hmem := wTermsA_cube
  have hne : ((1073741826 + 1 : ℤ) : ℚ) ≠ 0 := by norm_num
  obtain ⟨g, hg, -, hle⟩ := hG.2 _ hmem (by simp)
  rw [MonomialOrder.degree_monomial, if_neg hne] at hle
  rcases hg with rfl | rfl
  · rw [d0, fs_le] at hle
    exact absurd (hle 0) (by decide)
  · rw [d1, fs_le] at hle
    exact absurd (hle 0) (by decide)

/-- **C79**: if the only polynomial in the file is zero, the program stops with an error message, though the basis is defined. -/
theorem C79_zero (E : LiftGB.Ext) (nt : ℕ) (us : List ℕ) (r : Res (List Char)) :
    Run E nt 0 2 "x,y\n0\n0\n".toList us r ↔ r = .stopped ∧ us = [] := by
  have h : readFile "x,y\n0\n0\n".toList = some ⟨[['x'], ['y']], 0, .qq [[((0, 1), [0, 0])]]⟩ := by decide +kernel
  have h2 : importGens invalidQ 0 [[((0, 1), [0, 0])]] = .stop := by decide +kernel
  constructor
  · rintro ⟨names, ps, h1, -, -, h3⟩
    rw [h] at h1
    have h1 := Option.some.inj h1
    injection h1 with e1 e2 e3
    injection e3 with e3
    subst e3
    rw [h2] at h3
    exact h3
  · rintro ⟨rfl, rfl⟩
    refine ⟨_, _, h, rfl, by norm_num, ?_⟩
    rw [h2]
    exact ⟨rfl, rfl⟩

end EndToEndQq
end Verif.Props
