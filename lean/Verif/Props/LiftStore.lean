import Verif.ElimBasis
import Verif.Props.LiftGB
import Verif.Props.MulMatrix

/-! Properties C63 and C64: from the modular bases to the arrays that are lifted, and from these to the returned basis. -/

namespace Verif.Props

open Verif.MulMatrix Verif.LiftStore Verif.Hilbert Verif.Spec Verif.F4 Verif.Pairs MvPolynomial

variable {n : ℕ}

/-- What the computation modulo a prime delivers for the elimination order with `e` variables in the first block: the reduced
Groebner basis of some ideal, ordered by leading monomials. -/
structure ModGb (e p : ℕ) (I : Ideal (MvPolynomial (Fin (e + n)) (ZMod p))) (G : List (Poly (e + n))) : Prop where
  prime : p.Prime ∧ p < 2 ^ 32
  ok : ∀ f ∈ G, PolyOk (.be e) p f
  sorted : G.Pairwise fun a b => Be e (F4.lead a) (F4.lead b)
  gb : have : Fact p.Prime := ⟨prime.1⟩
    IsReducedGroebner (OKind.be e).mo I { g | ∃ f ∈ G, g = toMv p f }

/-- The elements kept, in the remaining variables. -/
def elimPart (e : ℕ) (G : List (Poly (e + n))) : List (Poly n) := (keepFree e G).map (dropPoly e)

/-- The ideal of the polynomials in the remaining variables. -/
noncomputable def elimIdeal {e p : ℕ} (I : Ideal (MvPolynomial (Fin (e + n)) (ZMod p))) : Ideal (MvPolynomial (Fin n) (ZMod p)) :=
  I.comap (rename (Fin.natAdd e)).toRingHom

theorem ModGb.embed {e p : ℕ} {I : Ideal (MvPolynomial (Fin (e + n)) (ZMod p))} {G : List (Poly (e + n))} (h : ModGb e p I G) :
    (elimPart e G).map (embedPoly e) = keepFree e G := by
  unfold elimPart
  rw [List.map_map]
  conv_rhs => rw [← List.map_id (keepFree e G)]
  apply List.map_congr_left
  intro f hf
  obtain ⟨h1, h2⟩ := mem_keepFree.mp hf
  exact embedPoly_drop (free_terms (h.ok f h1) h2)

theorem ModGb.elim_ok {e p : ℕ} {I : Ideal (MvPolynomial (Fin (e + n)) (ZMod p))} {G : List (Poly (e + n))} (h : ModGb e p I G) :
    ∀ f ∈ elimPart e G, PolyOk .drl p f := by
  intro f hf
  obtain ⟨g, hg, rfl⟩ := List.mem_map.mp hf
  obtain ⟨h1, h2⟩ := mem_keepFree.mp hg
  rw [← polyOk_embed e, embedPoly_drop (free_terms (h.ok g h1) h2)]
  exact h.ok g h1

/-- C63: the elements kept, with the block variables removed, are the reduced Groebner basis of the elimination ideal for the
degree reverse lexicographical order, ordered by leading monomials; `compute_num_gb` counts them in the learning phase. -/
theorem C63_elimination {e p : ℕ} {I : Ideal (MvPolynomial (Fin (e + n)) (ZMod p))} {G : List (Poly (e + n))}
    (h : ModGb e p I G) :
    have : Fact p.Prime := ⟨h.prime.1⟩
    IsReducedGroebner OKind.drl.mo (elimIdeal I) { g | ∃ f ∈ elimPart e G, g = toMv p f } ∧
      (elimPart e G).Pairwise (fun a b => Drl (F4.lead a) (F4.lead b)) ∧
      G.take (numGb e (G.map F4.lead)) = (elimPart e G).map (embedPoly e) := by
  intro hF
  refine ⟨elim_reduced h.gb h.ok, elim_sorted h.ok h.sorted, ?_⟩
  rw [h.embed]
  exact keepFree_eq h.sorted

theorem ModGb.red {e p : ℕ} {I : Ideal (MvPolynomial (Fin (e + n)) (ZMod p))} {G : List (Poly (e + n))} (h : ModGb e p I G) :
    RedBasis p (elimPart e G) := by
  have : Fact p.Prime := ⟨h.prime.1⟩
  obtain ⟨h1, h2, -⟩ := C63_elimination h
  exact redBasis_of h1 h.elim_ok h2

theorem tail_slot {p : ℕ} {H : List (Poly n)} (hH : RedBasis p H) {l : Fin n → ℕ} (hl : (H.map F4.lead).getLast? = some l)
    {mb : List (Fin n → ℕ)} (hm : ∀ m, m ∈ mb ↔ Irred (H.map F4.lead) m ∧ Hilbert.tdeg m ≤ Hilbert.tdeg l) :
    ∀ f ∈ H, ∀ ts, f = (F4.lead f, 1) :: ts → ∀ t ∈ ts, t.1 ∈ mb := by
  intro f hf ts hts t ht
  have hlt : Drl t.1 (F4.lead f) := by
    have hsort := (hH.ok f hf).sorted
    rw [hts, List.map_cons, List.pairwise_cons] at hsort
    exact hsort.1 _ (List.mem_map_of_mem ht)
  rw [hm]
  constructor
  · intro m hm' hle
    obtain ⟨g, hg, rfl⟩ := List.mem_map.mp hm'
    by_cases he : f = g
    · subst he
      exact MulMatrix.le_of_lt (O := .drl) hle hlt
    · exact hH.red f hf g hg he t (by rw [hts]; exact List.mem_cons_of_mem _ ht) hle
  · refine le_trans (tdeg_le_of_drl hlt) ?_
    obtain ⟨i, hi, rfl⟩ := List.mem_iff_getElem.mp hf
    rw [List.getLast?_eq_getElem?, List.getElem?_map] at hl
    rw [List.length_map] at hl
    have hlast : H.length - 1 < H.length := by omega
    rw [List.getElem?_eq_getElem hlast] at hl
    simp only [Option.map_some, Option.some.injEq] at hl
    subst hl
    rcases Nat.lt_or_eq_of_le (show i ≤ H.length - 1 by omega) with h | h
    · exact tdeg_le_of_drl (List.pairwise_iff_getElem.mp hH.sorted i (H.length - 1) hi hlast h)
    · simp [h]

/-- C63: let the learning prime have the elimination basis `H0`, not empty and without constant. The array of monomials is
computed and has a slot for every polynomial; for every prime the basis is stored when it has the same leading monomials: each
of its elements is its leading monomial plus the sum of the stored coefficients times the monomials of the slots. With other
leading monomials the prime is reported as bad, with another number of elements nothing is stored. -/
theorem C63_storage (hn : 1 ≤ n) {e : ℕ} {G0 : List (Poly (e + n))} (hne : elimPart e G0 ≠ []) (hunit : ∀ f ∈ elimPart e G0, F4.lead f ≠ 0) :
    ∃ mb, enlarged ((elimPart e G0).map F4.lead) = .done mb ∧ mb.Pairwise Drl ∧
      (∀ k < (elimPart e G0).length, lensOf ((elimPart e G0).map F4.lead) mb k ≠ 0 ∧
        lensOf ((elimPart e G0).map F4.lead) mb k ≤ mb.length) ∧
      (∀ f ∈ elimPart e G0, F4.lead f ∉ mb) ∧
      ∀ (p : ℕ) (I : Ideal (MvPolynomial (Fin (e + n)) (ZMod p))) (G : List (Poly (e + n))), ModGb e p I G →
        ((elimPart e G).length ≠ (elimPart e G0).length →
          eventOf e ((elimPart e G0).map F4.lead) mb p (keepFree e G) = some .skip) ∧
        ((elimPart e G).length = (elimPart e G0).length → (elimPart e G).map F4.lead ≠ (elimPart e G0).map F4.lead →
          eventOf e ((elimPart e G0).map F4.lead) mb p (keepFree e G) = some .bad) ∧
        ((elimPart e G).map F4.lead = (elimPart e G0).map F4.lead →
          ∃ c, eventOf e ((elimPart e G0).map F4.lead) mb p (keepFree e G) = some (.image p c) ∧
            ∀ k f, (elimPart e G)[k]? = some f →
              toMv p f = monomial (fs (F4.lead f)) 1 +
                slotPoly mb (lensOf ((elimPart e G0).map F4.lead) mb k) (fun l => ((c k l : ℕ) : ZMod p)) ∧
              ∀ l < mb.length, c k l < p) := by
  obtain ⟨l, hl⟩ : ∃ l, ((elimPart e G0).map F4.lead).getLast? = some l := by
    cases h : ((elimPart e G0).map F4.lead).getLast? with
    | none => rw [List.getLast?_eq_none_iff] at h; exact absurd (List.map_eq_nil_iff.mp h) hne
    | some l => exact ⟨l, rfl⟩
  obtain ⟨mb, em, hs, hm⟩ := enlarged_spec hn hl
  have hnot : ∀ m ∈ (elimPart e G0).map F4.lead, m ∉ mb := fun m hm' hmb => ((hm m).mp hmb).1 m hm' fun _ => le_rfl
  have hzero : (0 : Fin n → ℕ) ∈ mb := by
    rw [hm]
    refine ⟨?_, ?_⟩
    · intro m hm' hle
      obtain ⟨f, hf, rfl⟩ := List.mem_map.mp hm'
      apply hunit f hf
      funext i
      exact Nat.le_zero.mp (hle i)
    · simp [Hilbert.tdeg]
  refine ⟨mb, em, hs, ?_, fun f hf => hnot _ (List.mem_map_of_mem hf), ?_⟩
  · intro k hk
    have hk' : k < ((elimPart e G0).map F4.lead).length := by simpa using hk
    have hg : ((elimPart e G0).map F4.lead).getD k 0 = ((elimPart e G0).map F4.lead)[k] := List.getD_eq_getElem _ _ hk'
    unfold lensOf
    rw [hg]
    obtain ⟨h1, h2⟩ := lenOf_spec hs (hnot _ (List.getElem_mem hk'))
    refine ⟨?_, h1⟩
    obtain ⟨j, hj, ej⟩ := List.getElem_of_mem hzero
    have := (h2 j hj).mpr (by rw [ej]; simp [Hilbert.tdeg])
    omega
  · intro p I G hG
    have hlen : (keepFree e G).length = (elimPart e G).length := by simp [elimPart]
    have hleads : ((keepFree e G).map fun f => fun i => F4.lead f (Fin.natAdd e i)) = (elimPart e G).map F4.lead := by
      rw [← hG.embed, List.map_map]
      apply List.map_congr_left
      intro f hf
      simp only [Function.comp]
      have hne' : f ≠ [] := by
        obtain ⟨r, hr⟩ := (hG.elim_ok f hf).head
        rw [hr]; simp
      rw [lead_embed e hne', drop_embed]
    refine ⟨?_, ?_, ?_⟩
    · intro h
      unfold eventOf
      rw [if_pos (by rw [hlen, List.length_map]; exact h)]
    · intro h1 h2
      unfold eventOf
      rw [if_neg (by rw [hlen, List.length_map]; exact not_not.mpr h1), hleads, if_pos]
      simp only [Bool.not_eq_true']
      rw [← Bool.not_eq_true, equalStaircase_iff]
      exact h2
    · intro h
      have h1 : (elimPart e G).length = (elimPart e G0).length := by
        have := congrArg List.length h
        simpa using this
      unfold eventOf
      rw [if_neg (by rw [hlen, List.length_map]; exact not_not.mpr h1), hleads, if_neg (by
        simp only [Bool.not_eq_true', Bool.not_eq_false]
        exact (equalStaircase_iff _ _).mpr h), ← hG.embed]
      obtain ⟨cs, e1, e2, e3⟩ := storeAll_spec e (p := p) (lms := (elimPart e G0).map F4.lead) hs (elimPart e G) 0 (by
          intro i f hf
          rw [← h, zero_add, List.getD_eq_getElem?_getD, List.getElem?_map, hf]; rfl) hG.elim_ok (by
          intro f hf
          exact hnot _ (by rw [← h]; exact List.mem_map_of_mem hf)) (by
          rw [← h] at hl hm
          exact tail_slot hG.red hl hm)
      rw [e1]
      refine ⟨_, rfl, ?_⟩
      intro k f hf
      have hk : k < cs.length := by
        rw [e2]
        exact (List.getElem?_eq_some_iff.mp hf).1
      have := e3 k f cs[k] hf (List.getElem?_eq_getElem hk)
      rw [zero_add] at this
      rw [List.getD_eq_getElem _ _ hk]
      exact this

/-- The primes used and their bases: the learning prime, then those with the same leading monomials. -/
def goods (e p0 : ℕ) (G0 : List (Poly (e + n))) (gs : List ((ℕ × Option (List (Poly (e + n)))) × Bool)) :
    List (ℕ × List (Poly (e + n))) :=
  (p0, G0) :: gs.filterMap fun g =>
    match g.1.2 with
    | none => none
    | some G => if (elimPart e G).map F4.lead = (elimPart e G0).map F4.lead then some (g.1.1, G) else none

/-- The image `c` modulo `p` consists of the coefficients of the elimination part of `G`. -/
def ImageOf (e : ℕ) (lms mb : List (Fin n → ℕ)) (g : ℕ × List (Poly (e + n))) (pc : ℕ × (ℕ → ℕ → ℕ)) : Prop :=
  pc.1 = g.1 ∧ (g.1.Prime ∧ g.1 < 2 ^ 32) ∧ (elimPart e g.2).map F4.lead = lms ∧
    ∀ k f, (elimPart e g.2)[k]? = some f →
      toMv g.1 f = monomial (fs (F4.lead f)) 1 + slotPoly mb (lensOf lms mb k) (fun l => ((pc.2 k l : ℕ) : ZMod g.1)) ∧
      ∀ l < mb.length, pc.2 k l < g.1

theorem forall₂_getElem? {α β : Type*} {R : α → β → Prop} {l : List α} {m : List β} (h : List.Forall₂ R l m) (i : ℕ) :
    (∀ b, m[i]? = some b → ∃ a, l[i]? = some a ∧ R a b) ∧ (∀ a, l[i]? = some a → ∃ b, m[i]? = some b ∧ R a b) := by
  induction h generalizing i with
  | nil => simp
  | @cons a b l m hab _ ih =>
    cases i with
    | zero => simp [hab]
    | succ i => simpa using ih i

/-- C64: let the learning prime have the elimination basis `H0`, not empty and without constant, and let the later primes be
distinct and have bases with the same number of elements, or fail. Then the loop does not abort; when it ends, the export
succeeds and writes for each index a polynomial `h` with integer coefficients, leading coefficient `a > 0`, in the remaining
variables, all coefficients different from zero. Modulo the primes of index `1, …, N - 1`, for some `N ≥ 2`, it is `a` times
the element of that index in the reduced Groebner basis of the elimination ideal; and also modulo a prime of later index, unless
`a` is zero there and the element is a monomial. The terms behind the first are decreasing; they are smaller than the first or
divisible by all primes of index `1, …, N - 1`. -/
theorem C64_export (E : LiftGB.Ext) (hinv : CRT.InvSpec E.inv) (hmcrt : LiftGB.McrtSpec E.mcrt) {nt : ℕ} (hnt : 1 ≤ nt)
    (hn : 1 ≤ n) {e p0 : ℕ} {I0 : Ideal (MvPolynomial (Fin (e + n)) (ZMod p0))} {G0 : List (Poly (e + n))}
    (h0 : ModGb e p0 I0 G0) (hne : elimPart e G0 ≠ []) (hunit : ∀ f ∈ elimPart e G0, F4.lead f ≠ 0)
    (gs : List ((ℕ × Option (List (Poly (e + n)))) × Bool))
    (hgs : ∀ g ∈ gs, ∀ G, g.1.2 = some G → (∃ I, ModGb e g.1.1 I G) ∧ (elimPart e G).length = (elimPart e G0).length)
    (hnd : ((goods e p0 G0 gs).map Prod.fst).Nodup) :
    ∃ mb c0 es s0, enlarged ((elimPart e G0).map F4.lead) = .done mb ∧
      eventOf e ((elimPart e G0).map F4.lead) mb p0 (G0.take (numGb e (G0.map F4.lead))) = some (.image p0 c0) ∧
      eventsOf e ((elimPart e G0).map F4.lead) mb (keepFree e) gs = some es ∧
      LiftGB.initSt (elimPart e G0).length (lensOf ((elimPart e G0).map F4.lead) mb) p0 c0 = some s0 ∧
      LiftGB.run E nt es s0 0 0 ≠ .abort ∧
      ∀ s, LiftGB.run E nt es s0 0 0 = .done s →
        ∃ hs : List (List ((Fin (e + n) → ℕ) × ℤ)),
          exportQq e ((elimPart e G0).map F4.lead) mb s.npol s.polys = some (hs.map List.length, hs.flatten) ∧
          hs.length = (elimPart e G0).length ∧
          ∀ (k : ℕ) f0 h, (elimPart e G0)[k]? = some f0 → hs[k]? = some h →
            ∃ (a : ℤ) (tl : List ((Fin (e + n) → ℕ) × ℤ)), h = (embed e (F4.lead f0), a) :: tl ∧ 0 < a ∧
              (∀ t ∈ h, t.2 ≠ 0 ∧ Free e t.1) ∧ tl.Pairwise (fun s t => Be e t.1 s.1) ∧
              ∃ N j, 2 ≤ N ∧ N < j ∧
                (∀ i p G, 1 ≤ i → i < N → (goods e p0 G0 gs)[i]? = some (p, G) →
                  ∃ f ∈ keepFree e G, F4.lead f = embed e (F4.lead f0) ∧
                    MvPolynomial.map (Int.castRingHom (ZMod p)) (termsMv h) = MvPolynomial.C (a : ZMod p) * toMv p f) ∧
                (∃ p G, (goods e p0 G0 gs)[j]? = some (p, G) ∧
                  ∃ f ∈ keepFree e G, F4.lead f = embed e (F4.lead f0) ∧
                    (MvPolynomial.map (Int.castRingHom (ZMod p)) (termsMv h) = MvPolynomial.C (a : ZMod p) * toMv p f ∨
                      (a : ZMod p) = 0 ∧ toMv p f = monomial (fs (embed e (F4.lead f0))) 1)) ∧
                ∀ t ∈ tl, Be e t.1 (embed e (F4.lead f0)) ∨
                  ∀ (i p : ℕ) (G : List (Poly (e + n))), 1 ≤ i → i < N → (goods e p0 G0 gs)[i]? = some (p, G) → (p : ℤ) ∣ t.2 := by
  obtain ⟨mb, em, hs, hlens, hnot, hst⟩ := C63_storage hn hne hunit
  generalize hlms : (elimPart e G0).map F4.lead = lms at *
  generalize hnpol : (elimPart e G0).length = npol at *
  have hpos : 0 < npol := by
    rw [← hnpol]; exact List.length_pos_of_ne_nil hne
  have hkeep0 : G0.take (numGb e (G0.map F4.lead)) = keepFree e G0 := by
    rw [(C63_elimination h0).2.2, h0.embed]
  obtain ⟨c0, ec0, hc0⟩ := (hst p0 I0 G0 h0).2.2 hlms
  -- the events
  have hev : ∀ gs : List ((ℕ × Option (List (Poly (e + n)))) × Bool),
      (∀ g ∈ gs, ∀ G, g.1.2 = some G → (∃ I, ModGb e g.1.1 I G) ∧ (elimPart e G).length = npol) →
      ∃ es, eventsOf e lms mb (keepFree e) gs = some es ∧ LiftGB.NoSkip es ∧
        List.Forall₂ (ImageOf e lms mb) (goods e p0 G0 gs).tail (LiftGB.images es) := by
    intro gs
    induction gs with
    | nil => intro _; exact ⟨[], rfl, by simp [LiftGB.NoSkip], by simp [goods, LiftGB.images]⟩
    | cons g gs ih =>
      intro h
      obtain ⟨es, i1, i2, i3⟩ := ih (fun g hg => h g (List.mem_cons_of_mem _ hg))
      obtain ⟨⟨p, oG⟩, slow⟩ := g
      cases oG with
      | none =>
        refine ⟨(.bad, slow) :: es, by simp [eventsOf, i1], ?_, ?_⟩
        · intro x hx
          rcases List.mem_cons.mp hx with rfl | hx
          · simp
          · exact i2 x hx
        · simpa [goods, LiftGB.images] using i3
      | some G =>
        obtain ⟨⟨I, hG⟩, hl⟩ := h _ List.mem_cons_self G rfl
        by_cases hle : (elimPart e G).map F4.lead = lms
        · obtain ⟨c, ec, hc⟩ := (hst p I G hG).2.2 hle
          refine ⟨(.image p c, slow) :: es, by simp [eventsOf, i1, ec], ?_, ?_⟩
          · intro x hx
            rcases List.mem_cons.mp hx with rfl | hx
            · simp
            · exact i2 x hx
          · have : (goods e p0 G0 (((p, some G), slow) :: gs)).tail = (p, G) :: (goods e p0 G0 gs).tail := by
              simp only [goods, List.tail_cons, List.filterMap_cons]
              rw [hlms, if_pos hle]
            rw [this]
            exact List.Forall₂.cons ⟨rfl, hG.prime, hle, hc⟩ i3
        · have ec := (hst p I G hG).2.1 hl hle
          refine ⟨(.bad, slow) :: es, by simp [eventsOf, i1, ec], ?_, ?_⟩
          · intro x hx
            rcases List.mem_cons.mp hx with rfl | hx
            · simp
            · exact i2 x hx
          · have : (goods e p0 G0 (((p, some G), slow) :: gs)).tail = (goods e p0 G0 gs).tail := by
              simp only [goods, List.tail_cons, List.filterMap_cons]
              rw [hlms, if_neg hle]
            rw [this]
            exact i3
  obtain ⟨es, ees, hnoskip, hF⟩ := hev gs hgs
  have hF' : List.Forall₂ (ImageOf e lms mb) (goods e p0 G0 gs) (allImages p0 c0 es) :=
    List.Forall₂.cons ⟨rfl, h0.prime, hlms, hc0⟩ hF
  have hfst : (allImages p0 c0 es).map Prod.fst = (goods e p0 G0 gs).map Prod.fst := by
    generalize allImages p0 c0 es = A at hF'
    generalize goods e p0 G0 gs = B at hF'
    clear * - hF'
    induction hF' with
    | nil => rfl
    | cons h _ ih => rw [List.map_cons, List.map_cons, ih, h.1]
  have hprime : ∀ pc ∈ allImages p0 c0 es, pc.1.Prime ∧ pc.1 < 2 ^ 32 := by
    intro pc hpc
    obtain ⟨i, hi⟩ := List.mem_iff_getElem?.mp hpc
    obtain ⟨g, -, hg⟩ := (forall₂_getElem? hF' i).1 pc hi
    rw [hg.1]; exact hg.2.1
  have hl0 : ∀ k < npol, lensOf lms mb k ≠ 0 := fun k hk => (hlens k hk).1
  obtain ⟨s0, es0, hab, -⟩ := C62_no_abort E hinv hmcrt hnt hpos hl0 p0 c0 es hnoskip hprime (by rw [hfst]; exact hnd)
  refine ⟨mb, c0, es, s0, em, by rw [hkeep0]; exact ec0, ees, es0, hab, ?_⟩
  intro s hrun
  obtain ⟨hsn, hconf⟩ := C62_confirmed E hinv hmcrt hnt hpos hl0 p0 c0 es hnoskip hprime (by rw [hfst]; exact hnd) es0 hrun
  refine ⟨(List.range s.npol).map fun k => exportTerms e (lms.getD k 0) mb (s.polys k), ?_, by simp [hsn], ?_⟩
  · rw [exportQq_spec, List.map_map]
    rfl
  intro k f0 h hf0 hh
  have hk : k < npol := by
    rw [← hnpol]; exact (List.getElem?_eq_some_iff.mp hf0).1
  have hh' : h = exportTerms e (lms.getD k 0) mb (s.polys k) := by
    rw [List.getElem?_map, List.getElem?_range (by omega)] at hh
    simpa using hh.symm
  have hlk : lms.getD k 0 = F4.lead f0 := by
    rw [← hlms, List.getD_eq_getElem?_getD, List.getElem?_map, hf0]; rfl
  rw [hlk] at hh'
  subst hh'
  obtain ⟨hlen, hlm, N, j, hN, hNj, hl, pcj, hpcj, hconfj⟩ := hconf k hk
  have hslen : (s.polys k).len ≤ mb.length := by rw [hlen]; exact (hlens k hk).2
  -- the element of a used basis and its image
  have hel : ∀ (i p : ℕ) (G : List (Poly (e + n))), (goods e p0 G0 gs)[i]? = some (p, G) → ∃ c : ℕ → ℕ → ℕ, (allImages p0 c0 es)[i]? = some (p, c) ∧
      ∃ f, (elimPart e G)[k]? = some f ∧ embedPoly e f ∈ keepFree e G ∧ F4.lead (embedPoly e f) = embed e (F4.lead f0) ∧
        F4.lead f = F4.lead f0 ∧
        toMv p f = monomial (fs (F4.lead f0)) 1 + slotPoly mb (lensOf lms mb k) (fun l => ((c k l : ℕ) : ZMod p)) ∧
        (∀ l < mb.length, c k l < p) ∧ PolyOk .drl p f := by
    intro i p G hi
    obtain ⟨⟨p', c⟩, hb, h1, h2, h3, h4⟩ := (forall₂_getElem? hF' i).2 (p, G) hi
    simp only at h1 h2 h3 h4
    subst h1
    refine ⟨c, hb, ?_⟩
    have hkl : k < (elimPart e G).length := by
      have := congrArg List.length (h3.trans hlms.symm)
      simp only [List.length_map] at this
      omega
    have hok : ∃ I, ModGb e p' I G := by
      cases i with
      | zero =>
        simp only [goods, List.getElem?_cons_zero, Option.some.injEq, Prod.mk.injEq] at hi
        obtain ⟨rfl, rfl⟩ := hi
        exact ⟨I0, h0⟩
      | succ i =>
        simp only [goods, List.getElem?_cons_succ] at hi
        obtain ⟨⟨⟨q, oG⟩, sl⟩, hg1, hg2⟩ := List.mem_filterMap.mp (List.mem_of_getElem? hi)
        cases oG with
        | none => simp at hg2
        | some G' =>
          simp only [Option.ite_none_right_eq_some, Option.some.injEq, Prod.mk.injEq] at hg2
          obtain ⟨-, rfl, rfl⟩ := hg2
          exact (hgs _ hg1 _ rfl).1
    obtain ⟨I, hG⟩ := hok
    have hmem := List.getElem_mem hkl
    have hlead : F4.lead (elimPart e G)[k] = F4.lead f0 := by
      have h5 := congrArg (fun l => l[k]?) (h3.trans hlms.symm)
      simp only [List.getElem?_map, hf0, List.getElem?_eq_getElem hkl, Option.map_some, Option.some.injEq] at h5
      exact h5
    have hokf := hG.elim_ok _ hmem
    have hnil : (elimPart e G)[k] ≠ [] := by
      obtain ⟨r, hr⟩ := hokf.head
      rw [hr]; simp
    obtain ⟨g1, g2⟩ := h4 k _ (List.getElem?_eq_getElem hkl)
    rw [hlead] at g1
    refine ⟨(elimPart e G)[k], List.getElem?_eq_getElem hkl, ?_, ?_, hlead, g1, g2, hokf⟩
    · rw [← hG.embed]
      exact List.mem_map_of_mem hmem
    · rw [lead_embed e hnil, hlead]
  have hmono : ∀ (p : ℕ) (c : ℕ → ℕ → ℕ) (f : Poly n),
      toMv p f = monomial (fs (F4.lead f0)) 1 + slotPoly mb (lensOf lms mb k) (fun l => ((c k l : ℕ) : ZMod p)) →
      (∀ l < lensOf lms mb k, ((s.polys k).qn l : ZMod p) = ((s.polys k).lm : ZMod p) * (c k l : ZMod p)) →
      MvPolynomial.map (Int.castRingHom (ZMod p)) (termsMv (exportTerms e (F4.lead f0) mb (s.polys k))) =
        MvPolynomial.C ((s.polys k).lm : ZMod p) * toMv p (embedPoly e f) := by
    intro p c f h1 h2
    rw [exportTerms_map, toMv_embed, h1, hlen, slotPoly_smul mb _ _ _ _ h2]
    have hC : (MvPolynomial.C ((s.polys k).lm : ZMod p) : MvPolynomial (Fin (e + n)) (ZMod p)) =
        rename (Fin.natAdd e) (MvPolynomial.C ((s.polys k).lm : ZMod p)) := by rw [rename_C]
    rw [hC, ← map_mul, mul_add, C_mul_monomial, mul_one]
  refine ⟨(s.polys k).lm, _, rfl, hlm, ?_, ?_, N, j, hN, hNj, ?_, ?_, ?_⟩
  · intro t ht
    unfold exportTerms at ht
    rcases List.mem_cons.mp ht with rfl | ht
    · exact ⟨ne_of_gt hlm, free_embed e _⟩
    · obtain ⟨i, hi, rfl⟩ := List.mem_map.mp ht
      rw [List.mem_filter] at hi
      exact ⟨by simpa using hi.2, free_embed e _⟩
  · rw [List.pairwise_map]
    apply List.Pairwise.filter
    rw [List.pairwise_reverse, List.pairwise_iff_getElem]
    intro i j hi hj hij
    rw [List.length_range] at hi hj
    simp only [List.getElem_range]
    rw [be_embed, List.getD_eq_getElem _ _ (by omega), List.getD_eq_getElem _ _ (by omega)]
    exact List.pairwise_iff_getElem.mp hs i j (by omega) (by omega) hij
  · intro i p G h1 h2 hi
    obtain ⟨c, hc, f, -, hmem, hle, -, hpoly, -⟩ := hel i p G hi
    refine ⟨_, hmem, hle, hmono p c f hpoly ?_⟩
    intro l hll
    have := hl i (p, c) h1 h2 hc l hll
    push_cast at this
    exact this.symm
  · obtain ⟨⟨p, G⟩, hi, hI⟩ := (forall₂_getElem? hF' j).1 pcj hpcj
    obtain ⟨c, hc, f, -, hmem, hle, -, hpoly, hlt, -⟩ := hel j p G hi
    rw [hpcj, Option.some.injEq] at hc
    subst hc
    refine ⟨p, G, hi, _, hmem, hle, ?_⟩
    have hFp : Fact p.Prime := ⟨hI.2.1.1⟩
    have hq : ∀ l < lensOf lms mb k, ((s.polys k).qn l : ZMod p) * ((s.polys k).lm : ZMod p)⁻¹ = (c k l : ZMod p) :=
      fun l hll => hconfj l hll (hlt l (by have := (hlens k hk).2; omega)) hFp
    by_cases hz : ((s.polys k).lm : ZMod p) = 0
    · right
      refine ⟨hz, ?_⟩
      have h0' : slotPoly mb (lensOf lms mb k) (fun l => ((c k l : ℕ) : ZMod p)) = 0 := by
        unfold slotPoly
        apply Finset.sum_eq_zero
        intro l hll
        dsimp only
        rw [← hq l (Finset.mem_range.mp hll), hz, inv_zero, mul_zero, monomial_zero]
      rw [toMv_embed, hpoly, h0', add_zero, rename_monomial, fs_embed]
    · left
      refine hmono p c f hpoly ?_
      intro l hll
      rw [← hq l hll]
      field_simp
  · intro t ht
    obtain ⟨i, hi, rfl⟩ := List.mem_map.mp ht
    rw [List.mem_filter, List.mem_reverse, List.mem_range] at hi
    have him : i < mb.length := by omega
    rw [List.getD_eq_getElem _ _ him]
    by_cases hd : Drl mb[i] (F4.lead f0)
    · left
      exact (be_embed e _ _).mpr hd
    · right
      intro i' p G h1 h2 hg
      obtain ⟨c, hc, f, -, -, -, hlead, hpoly, -, hok⟩ := hel i' p G hg
      have hz : ((c k i : ℕ) : ZMod p) = 0 := by
        have h5 := congrArg (MvPolynomial.coeff (fs mb[i])) hpoly
        have hnl : fs (F4.lead f0) ≠ fs mb[i] := by
          intro he
          exact hnot f0 (List.mem_of_getElem? hf0) (fs_inj.mp he ▸ List.getElem_mem him)
        rw [coeff_add, coeff_monomial, if_neg hnl, zero_add, slotPoly_coeff (drl_nodup hs) (hlens k hk).2 _ him,
          if_pos (by omega), toMv_coeff_zero] at h5
        · exact h5.symm
        · intro t ht he
          rcases hok.terms t ht with h6 | h6
          · rw [hlead] at h6
            exact hnl (by rw [← h6, he])
          · rw [hlead, he] at h6
            exact hd h6
      have := hl i' (p, c) h1 h2 hc i (by omega)
      push_cast at this
      rw [hz, mul_zero] at this
      exact (ZMod.intCast_zmod_eq_zero_iff_dvd _ _).mp this.symm


/-! ### The hypotheses can be met -/

/-- `y + b, x + a` for the order with `x` in the first block. -/
def exStorePt (a b : ℕ) : List (Poly (1 + 1)) := [[(![0, 1], 1), (0, b)], [(![1, 0], 1), (0, a)]]

theorem exStoreMon {p : ℕ} (v : Fin (1 + 1) → ZMod p) (m : Fin (1 + 1) → ℕ) (c : ZMod p) :
    aeval v (monomial (fs m) c) = c * (v 0 ^ m 0 * v 1 ^ m 1) := by
  rw [aeval_monomial, Finsupp.prod_fintype _ _ (by simp)]
  simp [Fin.prod_univ_two]

theorem exStorePt_mem {p : ℕ} (a b : ℕ) (f : Poly (1 + 1)) (hf : f ∈ exStorePt a b) :
    aeval (![-(a : ZMod p), -(b : ZMod p)] : Fin (1 + 1) → ZMod p) (toMv p f) = 0 := by
  simp only [exStorePt, List.mem_cons, List.not_mem_nil, or_false] at hf
  rcases hf with rfl | rfl
  · rw [toMv_cons, toMv_cons, toMv_nil, add_zero, map_add]
    rw [exStoreMon, exStoreMon]; simp
  · rw [toMv_cons, toMv_cons, toMv_nil, add_zero, map_add]
    rw [exStoreMon, exStoreMon]; simp

theorem exStorePt_gb {p a b : ℕ} (hp : p.Prime ∧ p < 2 ^ 32) (ha : 0 < a ∧ a < p) (hb : 0 < b ∧ b < p) :
    ∃ I, ModGb (n := 1) 1 p I (exStorePt a b) := by
  have hF : Fact p.Prime := ⟨hp.1⟩
  have hok : ∀ f ∈ exStorePt a b, PolyOk (.be 1) p f := by
    intro f hf
    simp only [exStorePt, List.mem_cons, List.not_mem_nil, or_false] at hf
    rcases hf with rfl | rfl
    · refine ⟨⟨_, rfl⟩, ?_, ?_⟩
      · rw [List.map_cons, List.map_cons, List.map_nil, List.pairwise_pair]
        exact (OKind.be 1).adm.one_lt _ (by decide)
      · intro t ht
        simp only [List.mem_cons, List.not_mem_nil, or_false] at ht
        rcases ht with rfl | rfl
        · exact ⟨by norm_num, hp.1.one_lt⟩
        · exact ⟨by omega, hb.2⟩
    · refine ⟨⟨_, rfl⟩, ?_, ?_⟩
      · rw [List.map_cons, List.map_cons, List.map_nil, List.pairwise_pair]
        exact (OKind.be 1).adm.one_lt _ (by decide)
      · intro t ht
        simp only [List.mem_cons, List.not_mem_nil, or_false] at ht
        rcases ht with rfl | rfl
        · exact ⟨by norm_num, hp.1.one_lt⟩
        · exact ⟨by omega, ha.2⟩
  have hnz : ∀ f ∈ exStorePt a b, toMv p f ≠ 0 := by
    intro f hf h
    have h1 := (hok f hf).monic
    rw [h, MonomialOrder.leadingCoeff_zero] at h1
    exact zero_ne_one h1
  refine ⟨RingHom.ker (aeval (![-(a : ZMod p), -(b : ZMod p)] : Fin (1 + 1) → ZMod p)).toRingHom, hp, hok, ?_, ?_⟩
  · simp only [exStorePt, List.pairwise_pair]
    exact be_of_free (by intro j; fin_cases j; rfl) (by intro h; exact absurd (show (1 : ℕ) = 0 from h 0) (by decide))
  · dsimp only
    refine ⟨⟨?_, ?_⟩, ?_, ?_⟩
    · rintro g ⟨f, hf, rfl⟩
      exact exStorePt_mem a b f hf
    · intro q hq hq0
      obtain ⟨m, hm⟩ := fs_surj ((OKind.be 1).mo.degree q)
      have hm0 : m ≠ 0 := by
        rintro rfl
        have h0 : (OKind.be 1).mo.degree q = 0 := by rw [← hm]; ext i; simp
        rw [MonomialOrder.degree_eq_zero_iff] at h0
        have hq' : aeval (![-(a : ZMod p), -(b : ZMod p)] : Fin (1 + 1) → ZMod p) q = 0 := hq
        rw [h0, aeval_C] at hq'
        apply hq0
        rw [h0]
        simp only [Algebra.algebraMap_self, RingHom.id_apply] at hq'
        rw [hq', C_0]
      by_cases h1 : m 1 = 0
      · have h0 : m 0 ≠ 0 := by
          intro h0
          apply hm0
          funext i; fin_cases i
          · exact h0
          · exact h1
        refine ⟨_, ⟨[(![1, 0], 1), (0, a)], by simp [exStorePt], rfl⟩, ?_, ?_⟩
        · exact hnz _ (by simp [exStorePt])
        · rw [(hok [(![1, 0], 1), (0, a)] (by simp [exStorePt])).degree, ← hm]
          intro i; fin_cases i
          · exact Nat.one_le_iff_ne_zero.mpr h0
          · exact Nat.zero_le _
      · refine ⟨_, ⟨[(![0, 1], 1), (0, b)], by simp [exStorePt], rfl⟩, ?_, ?_⟩
        · exact hnz _ (by simp [exStorePt])
        · rw [(hok [(![0, 1], 1), (0, b)] (by simp [exStorePt])).degree, ← hm]
          intro i; fin_cases i
          · exact Nat.zero_le _
          · exact Nat.one_le_iff_ne_zero.mpr h1
    · rintro g ⟨f, hf, rfl⟩
      exact (hok f hf).monic
    · rintro g ⟨f, hf, rfl⟩ g' ⟨f', hf', rfl⟩ hne u hu hle
      obtain ⟨w, rfl⟩ := fs_surj u
      have hw : ∃ t ∈ f, t.1 = w := by
        by_contra hno
        push Not at hno
        exact (mem_support_iff.mp hu) (toMv_coeff_zero p f w hno)
      obtain ⟨t, ht, rfl⟩ := hw
      rw [(hok f' hf').degree] at hle
      simp only [exStorePt, List.mem_cons, List.not_mem_nil, or_false] at hf hf'
      rcases hf with rfl | rfl <;> rcases hf' with rfl | rfl
      · exact hne rfl
      · simp only [List.mem_cons, List.not_mem_nil, or_false] at ht
        have := hle 0
        rcases ht with rfl | rfl <;> simp [F4.lead] at this
      · simp only [List.mem_cons, List.not_mem_nil, or_false] at ht
        have := hle 1
        rcases ht with rfl | rfl <;> simp [F4.lead] at this
      · exact hne rfl

/-- `x - 5` and `y - 2 / 3` modulo a prime. -/
def exStoreMod (p : ℕ) : List (Poly (1 + 1)) := exStorePt (p - 5) ((-2 * Int.gcdA 3 p % p).toNat)

def exStoreRun : List ((ℕ × Option (List (Poly (1 + 1)))) × Bool) :=
  [((1009, some (exStoreMod 1009)), false), ((1021, none), true), ((1013, some (exStoreMod 1013)), false),
   ((1019, some (exStoreMod 1019)), false)]

example : (∃ I, ModGb (n := 1) 1 1049 I (exStoreMod 1049)) ∧ elimPart (n := 1) 1 (exStoreMod 1049) ≠ [] ∧
    (∀ f ∈ elimPart (n := 1) 1 (exStoreMod 1049), F4.lead f ≠ 0) ∧
    (∀ g ∈ exStoreRun, ∀ G, g.1.2 = some G → (∃ I, ModGb (n := 1) 1 g.1.1 I G) ∧
      (elimPart (n := 1) 1 G).length = (elimPart (n := 1) 1 (exStoreMod 1049)).length) ∧
    ((goods (n := 1) 1 1049 (exStoreMod 1049) exStoreRun).map Prod.fst).Nodup := by
  refine ⟨exStorePt_gb ⟨by norm_num, by norm_num⟩ (by decide) (by decide +kernel), by decide, by decide, ?_, by decide⟩
  intro g hg G hG
  simp only [exStoreRun, List.mem_cons, List.not_mem_nil, or_false] at hg
  rcases hg with rfl | rfl | rfl | rfl
  · cases hG
    exact ⟨exStorePt_gb ⟨by norm_num, by norm_num⟩ (by decide) (by decide +kernel), by decide⟩
  · cases hG
  · cases hG
    exact ⟨exStorePt_gb ⟨by norm_num, by norm_num⟩ (by decide) (by decide +kernel), by decide⟩
  · cases hG
    exact ⟨exStorePt_gb ⟨by norm_num, by norm_num⟩ (by decide) (by decide +kernel), by decide⟩

/-- The whole computation of the example: `3 y - 2` is returned. -/
def exStoreWhole : Option (List ℕ × List ((Fin (1 + 1) → ℕ) × ℤ)) :=
  let lms := (elimPart (n := 1) 1 (exStoreMod 1049)).map F4.lead
  match enlarged lms with
  | .done mb =>
    match eventOf 1 lms mb 1049 ((exStoreMod 1049).take (numGb 1 ((exStoreMod 1049).map F4.lead))), eventsOf 1 lms mb (keepFree 1) exStoreRun with
    | some (.image _ c0), some es =>
      match LiftGB.initSt lms.length (lensOf lms mb) 1049 c0 with
      | some s0 =>
        match LiftGB.run exExt 1 es s0 0 0 with
        | .done s => exportQq 1 lms mb s.npol s.polys
        | _ => none
      | none => none
    | _, _ => none
  | _ => none

example : exStoreWhole = some ([2], [(![0, 1], 3), (![0, 0], -2)]) := by decide +kernel

/-- C63 needs an element in the elimination ideal: for the ideal of `x y` it is zero, and the row before the array of leading
monomials is read. -/
theorem C63_zero_elimination : elimPart (n := 1) 1 [[(![1, 1], 1)]] = [] ∧
    enlarged ((elimPart (n := 1) 1 [[(![1, 1], 1)]]).map F4.lead) = .overflow := by
  have h : elimPart (n := 1) 1 [[(![1, 1], 1)]] = [] := by decide
  exact ⟨h, by rw [h]; rfl⟩

end Verif.Props
