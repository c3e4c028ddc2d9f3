import Verif.LiftGB
import Mathlib.Tactic.NormNum.Prime

/-! Property C62: a Groebner basis over the rationals is returned only after it was confirmed. -/

namespace Verif.Props

open Verif.LiftGB Verif.CRT

/-- The images used by an execution: that of the learning prime, then those of the events. -/
def allImages (p0 : ℕ) (c0 : ℕ → ℕ → ℕ) (es : List (Ev × Bool)) : List (ℕ × (ℕ → ℕ → ℕ)) := (p0, c0) :: images es

/-- C62: for every sequence of primes, images and timings, a basis is returned only when each of its polynomials
`lm * m_k + Σ qn_l m_l` has the images modulo the primes of index `1, …, n - 1` for some `n ≥ 2` and the image modulo a prime
of later index `j > n`: dividing by the leading coefficient gives the coefficients of the image. -/
theorem C62_confirmed (E : Ext) (hinv : InvSpec E.inv) (hmcrt : McrtSpec E.mcrt) {nt : ℕ} (hnt : 1 ≤ nt) {npol : ℕ}
    (hnpol : 0 < npol) {lens : ℕ → ℕ} (hlens : ∀ k < npol, lens k ≠ 0) (p0 : ℕ) (c0 : ℕ → ℕ → ℕ) (es : List (Ev × Bool))
    (hes : NoSkip es) (hprime : ∀ pc ∈ allImages p0 c0 es, pc.1.Prime ∧ pc.1 < 2 ^ 32)
    (hnd : ((allImages p0 c0 es).map Prod.fst).Nodup) {s0 s : St} (h0 : initSt npol lens p0 c0 = some s0)
    (hrun : run E nt es s0 0 0 = .done s) :
    s.npol = npol ∧ ∀ k < npol, (s.polys k).len = lens k ∧ 0 < (s.polys k).lm ∧
      ∃ n j, 2 ≤ n ∧ n < j ∧
        (∀ i pc, 1 ≤ i → i < n → (allImages p0 c0 es)[i]? = some pc →
          ∀ l < lens k, (((s.polys k).lm * pc.2 k l : ℤ) : ZMod pc.1) = ((s.polys k).qn l : ZMod pc.1)) ∧
        ∃ pc, (allImages p0 c0 es)[j]? = some pc ∧
          ∀ l < lens k, pc.2 k l < pc.1 → ∀ _ : Fact pc.1.Prime,
            ((s.polys k).qn l : ZMod pc.1) * ((s.polys k).lm : ZMod pc.1)⁻¹ = (pc.2 k l : ZMod pc.1) := by
  obtain ⟨s1, e1, hL⟩ := initSt_spec hnpol hlens (hprime (p0, c0) List.mem_cons_self) c0
  rw [e1] at h0
  cases h0
  rcases run_spec E hinv hmcrt hnt es [(p0, c0)] s0 0 0 hL hes hnd (fun pc h => hprime pc (List.mem_cons_of_mem _ h)) with
    ⟨s', _, _, e, _⟩ | ⟨s', e, _⟩ | ⟨s', pre, post, np, nbad, e, epre, hI, hf⟩
  · rw [hrun] at e; cases e
  · rw [hrun] at e; cases e
  · rw [hrun] at e
    cases e
    refine ⟨hI.hnpol, fun k hk => ⟨hI.hlen k, ?_⟩⟩
    have hck : 2 ≤ s.check2 k := by
      unfold finished at hf
      rw [List.all_eq_true] at hf
      simpa using hf k (by rw [hI.hnpol]; exact List.mem_range.mpr hk)
    obtain ⟨-, d2⟩ := hI.inv.hdone k
    obtain ⟨n, n1, n2, n3, n4⟩ := d2 (by omega)
    obtain ⟨j, j1, j2, j3⟩ := n4 hck
    have happ : ∀ a b : List (Ev × Bool), images (a ++ b) = images a ++ images b := by
      intro a b
      induction a with
      | nil => rfl
      | cons x a ih =>
        obtain ⟨ev, sl⟩ := x
        cases ev <;> simp [images, ih]
    have hpre : allImages p0 c0 es = ([(p0, c0)] ++ images pre) ++ images post := by
      rw [epre]; simp [allImages, happ]
    have hcnt := hI.hcnt
    refine ⟨n3.1, n, j, n1, j1, ?_, ?_⟩
    · intro i pc h1 h2 hpc l hl
      rw [hpre, List.getElem?_append_left (by omega)] at hpc
      obtain ⟨g1, g2⟩ := hI.himg i pc hpc
      have := ((n3.2 l (by rw [hI.hlen]; exact hl)).2 i h1 h2)
      rw [g1, g2] at this
      exact (ZMod.intCast_eq_intCast_iff_dvd_sub _ _ _).mpr (by
        have h := (dvd_neg).mpr this
        simpa using h)
    · have hjl : j < ([(p0, c0)] ++ images pre).length := by omega
      refine ⟨([(p0, c0)] ++ images pre)[j], ?_, ?_⟩
      · rw [hpre, List.getElem?_append_left hjl, List.getElem?_eq_getElem hjl]
      · obtain ⟨g1, g2⟩ := hI.himg j _ (List.getElem?_eq_getElem hjl)
        intro l hl hlt hF
        have hc := j3 l (by rw [hI.hlen]; exact hl)
        rw [g1, g2, (n3.2 l (by rw [hI.hlen]; exact hl)).1, mul_one] at hc
        have hlt32 := (hI.inv.hp j j2).2
        rw [g1] at hlt32
        exact (verifCoef_iff hlt32 _ _ _ hlt).mp hc

/-- C62: a returned coefficient is the right one unless numbers as large as the product of the primes used are involved:
whenever the images of index `1, …, n - 1` are those of a fraction `a / b`, the returned coefficient `qn / lm` is equal
to it, or `|qn * b - a * lm|` is at least the product of these primes. -/
theorem C62_exact {n : ℕ} (ps : ℕ → ℕ) (c : ℕ → ℕ) (hp : ∀ i, 1 ≤ i → i < n → (ps i).Prime)
    (hinj : ∀ i j, 1 ≤ i → i < n → 1 ≤ j → j < n → ps i = ps j → i = j) (a b qn lm : ℤ)
    (himg : ∀ i, 1 ≤ i → i < n → ((b * c i : ℤ) : ZMod (ps i)) = (a : ZMod (ps i)))
    (hres : ∀ i, 1 ≤ i → i < n → ((lm * c i : ℤ) : ZMod (ps i)) = (qn : ZMod (ps i))) :
    qn * b = a * lm ∨ ∏ i ∈ Finset.Ico 1 n, (ps i : ℤ) ≤ |qn * b - a * lm| := by
  have hd : ∏ i ∈ Finset.Ico 1 n, (ps i : ℤ) ∣ qn * b - a * lm := by
    apply Finset.prod_dvd_of_coprime
    · intro i hi j hj hij
      have hi := Finset.mem_Ico.mp hi
      have hj := Finset.mem_Ico.mp hj
      refine Nat.isCoprime_iff_coprime.mpr ((Nat.coprime_primes (hp i hi.1 hi.2) (hp j hj.1 hj.2)).mpr ?_)
      exact fun e => hij (hinj i j hi.1 hi.2 hj.1 hj.2 e)
    · intro i hi
      have hi := Finset.mem_Ico.mp hi
      rw [← ZMod.intCast_zmod_eq_zero_iff_dvd] 
      have h1 := himg i hi.1 hi.2
      have h2 := hres i hi.1 hi.2
      push_cast at h1 h2 ⊢
      rw [← h1, ← h2]; ring
  by_cases h : qn * b - a * lm = 0
  · left; linarith
  · right
    exact Int.le_of_dvd (abs_pos.mpr h) ((dvd_abs _ _).mpr hd)

/-- C62: as long as every discarded prime is reported, no execution aborts, and the computation is started again only
when no image after that of the learning prime was used. -/
theorem C62_no_abort (E : Ext) (hinv : InvSpec E.inv) (hmcrt : McrtSpec E.mcrt) {nt : ℕ} (hnt : 1 ≤ nt) {npol : ℕ}
    (hnpol : 0 < npol) {lens : ℕ → ℕ} (hlens : ∀ k < npol, lens k ≠ 0) (p0 : ℕ) (c0 : ℕ → ℕ → ℕ) (es : List (Ev × Bool))
    (hes : NoSkip es) (hprime : ∀ pc ∈ allImages p0 c0 es, pc.1.Prime ∧ pc.1 < 2 ^ 32)
    (hnd : ((allImages p0 c0 es).map Prod.fst).Nodup) :
    ∃ s0, initSt npol lens p0 c0 = some s0 ∧ run E nt es s0 0 0 ≠ .abort ∧
      ∀ s, run E nt es s0 0 0 = .restart s → s.nprimes = 1 := by
  obtain ⟨s0, e0, hL⟩ := initSt_spec hnpol hlens (hprime (p0, c0) List.mem_cons_self) c0
  refine ⟨s0, e0, ?_⟩
  rcases run_spec E hinv hmcrt hnt es [(p0, c0)] s0 0 0 hL hes hnd (fun pc h => hprime pc (List.mem_cons_of_mem _ h)) with
    ⟨s', _, _, e, _⟩ | ⟨s', e, h, _⟩ | ⟨s', pre, post, np, nbad, e, epre, hI, hf⟩
  · rw [e]
    exact ⟨by simp, by simp⟩
  · rw [e]
    exact ⟨by simp, fun s hs => by cases hs; exact h⟩
  · rw [e]
    exact ⟨by simp, by simp⟩

/-- C62 fails for primes that are discarded without report: `gb_modular_trace_application` returns at line 772, when the
number of basis elements differs from the expected one, without marking the prime. In every execution in which some image
was used before, the program then stops: the last prime is used a second time. -/
theorem C62_unreported_prime_aborts (E : Ext) (hinv : InvSpec E.inv) (hmcrt : McrtSpec E.mcrt) (hz : ∀ q, E.inv 0 q = 0)
    {nt : ℕ} (hnt : 1 ≤ nt) {npol : ℕ} (hnpol : 0 < npol) {lens : ℕ → ℕ} (hlens : ∀ k < npol, lens k ≠ 0) (p0 : ℕ)
    (c0 : ℕ → ℕ → ℕ) (es : List (Ev × Bool)) (hes : NoSkip es)
    (hprime : ∀ pc ∈ allImages p0 c0 es, pc.1.Prime ∧ pc.1 < 2 ^ 32)
    (hnd : ((allImages p0 c0 es).map Prod.fst).Nodup) (himg : images es ≠ []) {s0 s : St} {np nbad : ℕ}
    (h0 : initSt npol lens p0 c0 = some s0) (hrun : run E nt es s0 0 0 = .running s np nbad) (slow : Bool) :
    round E nt .skip slow s np nbad = .abort := by
  obtain ⟨s1, e1, hL⟩ := initSt_spec hnpol hlens (hprime (p0, c0) List.mem_cons_self) c0
  rw [e1] at h0
  cases h0
  rcases run_spec E hinv hmcrt hnt es [(p0, c0)] s0 0 0 hL hes hnd (fun pc h => hprime pc (List.mem_cons_of_mem _ h)) with
    ⟨s', _, _, e, hI⟩ | ⟨s', e, _⟩ | ⟨s', pre, post, _, _, e, _⟩
  · rw [hrun] at e
    cases e
    have hn : 2 ≤ s.nprimes := by
      rw [hI.hcnt]
      have := List.length_pos_of_ne_nil himg
      simp only [List.length_append, List.length_cons, List.length_nil]
      omega
    have hnp := hI.hnp
    unfold round
    dsimp only
    have hal : ∃ a, (if s.alloc ≤ np + 2 then ({ s with alloc := s.alloc + 16 * nt } : St) else s) = { s with alloc := a } := by
      split
      · exact ⟨_, rfl⟩
      · exact ⟨s.alloc, rfl⟩
    obtain ⟨a, ea⟩ := hal
    rw [ea, if_neg (show ¬ nbad = np + 1 by omega)]
    have hi : Inv { s with alloc := a } s.nprimes (s.nprimes - 1) :=
      { hp := hI.inv.hp, hinj := hI.inv.hinj, hnp := hI.inv.hnp, hn1 := hI.inv.hn1, hmn := hI.inv.hmn, hmod := hI.inv.hmod,
        hcrt := hI.inv.hcrt, hden := hI.inv.hden, hgden := hI.inv.hgden, hst := hI.inv.hst, hdone := hI.inv.hdone }
    rw [ratreconGb_skip E hz (s := { s with alloc := a }) hn hi]
  · rw [hrun] at e; cases e
  · rw [hrun] at e; cases e

/-! ### The hypotheses can be met -/

/-- The Chinese remainder, one prime after the other. -/
def crtFold (primes : ℕ → ℕ) (r : ℕ → ℕ) : ℕ → ℤ × ℤ
  | 0 => (0, 1)
  | n + 1 =>
    let x := crtFold primes r n
    (x.1 + x.2 * ((r n - x.1) * Int.gcdA x.2 (primes n) % primes n), x.2 * primes n)

def exExt : Ext := ⟨fun a m => Int.gcdA a m, fun ps n r => (crtFold ps r n).1⟩

theorem exExt_inv : InvSpec exExt.inv := by
  intro a m h1 h2 h3 h4
  have := Int.gcd_eq_gcd_ab a m
  rw [h4] at this
  have : m ∣ 1 - Int.gcdA a m * a := ⟨Int.gcdB a m, by push_cast at this; linarith⟩
  exact (Int.modEq_iff_dvd).mpr this

theorem exExt_mcrt : McrtSpec exExt.mcrt := by
  intro ps n r h1 h2
  have key : ∀ m ≤ n, (crtFold ps r m).2 = ∏ i ∈ Finset.range m, (ps i : ℤ) ∧
      ∀ i < m, (crtFold ps r m).1 ≡ (r i : ℤ) [ZMOD (ps i : ℤ)] := by
    intro m
    induction m with
    | zero => intro _; simp [crtFold]
    | succ m ih =>
      intro hm
      obtain ⟨e, h⟩ := ih (by omega)
      refine ⟨by rw [Finset.prod_range_succ, ← e]; rfl, ?_⟩
      intro i hi
      simp only [crtFold]
      rcases Nat.lt_succ_iff_lt_or_eq.mp hi with hi | rfl
      · have hd : (ps i : ℤ) ∣ (crtFold ps r m).2 := by
          rw [e]; exact Finset.dvd_prod_of_mem (fun i => (ps i : ℤ)) (Finset.mem_range.mpr hi)
        have h3 := h i hi
        have h4 := (Int.modEq_zero_iff_dvd.mpr (hd.mul_right ((r m - (crtFold ps r m).1) *
          Int.gcdA (crtFold ps r m).2 (ps m) % ps m)))
        simpa using h3.add h4
      · have hc : Int.gcd (crtFold ps r i).2 (ps i) = 1 := by
          rw [e, ← Int.isCoprime_iff_gcd_eq_one]
          apply IsCoprime.prod_left
          intro j hj
          have hj := Finset.mem_range.mp hj
          exact Nat.isCoprime_iff_coprime.mpr (h2 j (by omega) i (by omega) (by omega))
        have hb := Int.gcd_eq_gcd_ab (crtFold ps r i).2 (ps i)
        rw [hc] at hb
        generalize hM : (crtFold ps r i).2 = M at hb ⊢
        generalize (crtFold ps r i).1 = x
        have h5 : M * ((r i - x) * Int.gcdA M (ps i) % ps i) ≡ M * ((r i - x) * Int.gcdA M (ps i)) [ZMOD (ps i : ℤ)] :=
          Int.ModEq.mul_left _ (Int.mod_modEq _ _)
        refine (Int.ModEq.add_left x h5).trans ?_
        refine Int.modEq_iff_dvd.mpr ⟨(r i - x) * Int.gcdB M (ps i), ?_⟩
        have hb' : (1 : ℤ) = M * Int.gcdA M (ps i) + ps i * Int.gcdB M (ps i) := by exact_mod_cast hb
        linear_combination (r i - x) * hb'
  exact (key n le_rfl).2

/-- Coefficients of `x + y / 3 - 2 / 5` and `y ^ 2 + 7 / 3`, constant term first. -/
def exCoef (k l : ℕ) : ℤ × ℤ := if k = 0 then (if l = 0 then (-2, 5) else (1, 3)) else if l = 0 then (7, 3) else (0, 1)

/-- Their images. -/
def exImage (p k l : ℕ) : ℕ := ((exCoef k l).1 * Int.gcdA (exCoef k l).2 p % p).toNat

def exEvents : List (Ev × Bool) :=
  [(.image 1009 (exImage 1009), false), (.bad, true), (.image 1013 (exImage 1013), false), (.bad, false),
   (.image 1019 (exImage 1019), false)]

/-- The numerators and the leading coefficients at the end. -/
def exResult (o : Option Outcome) : Option (List (List ℤ × ℤ)) :=
  match o with
  | some (.done s) => some ((List.range s.npol).map fun k =>
      ((List.range (s.polys k).len).map fun l => (s.polys k).qn l, (s.polys k).lm))
  | _ => none

/-- A run with discarded primes returns the two polynomials over their common denominators. -/
example : exResult ((initSt 2 (fun _ => 2) 1049 (exImage 1049)).map fun s => run exExt 1 exEvents s 0 0) =
    some [([-6, 5], 15), ([7, 0], 3)] := by decide +kernel
example : NoSkip exEvents ∧ ((allImages 1049 (exImage 1049) exEvents).map Prod.fst).Nodup ∧
    ∀ pc ∈ allImages 1049 (exImage 1049) exEvents, pc.1.Prime ∧ pc.1 < 2 ^ 32 := by
  refine ⟨?_, by decide, ?_⟩
  · intro e he
    simp only [exEvents, List.mem_cons, List.not_mem_nil, or_false] at he
    rcases he with rfl | rfl | rfl | rfl | rfl <;> simp
  · intro pc hpc
    simp only [allImages, exEvents, images, List.mem_cons, List.not_mem_nil, or_false] at hpc
    rcases hpc with rfl | rfl | rfl | rfl <;> exact ⟨by norm_num, by norm_num⟩
example : ∀ q, exExt.inv 0 q = 0 := by
  intro q
  cases q <;> simp [exExt, Int.gcdA]
/-- The same run, stopped by an unreported prime. -/
example : ((initSt 2 (fun _ => 2) 1049 (exImage 1049)).map fun s =>
    match run exExt 1 (exEvents.take 3 ++ [(.skip, false)]) s 0 0 with
    | .abort => true
    | _ => false) = some true := by decide +kernel
/-- The bound of `C62_exact` for the first coefficient of the run: the fractions -6 / 15 and -2 / 5. -/
example : ((5 * exImage 1009 0 0 : ℤ) : ZMod 1009) = ((-2 : ℤ) : ZMod 1009) ∧
    ((15 * exImage 1009 0 0 : ℤ) : ZMod 1009) = ((-6 : ℤ) : ZMod 1009) ∧ (-6 : ℤ) * 5 = -2 * 15 := by decide +kernel

/-- C62: the confirmation is not a proof. For the polynomial `x + a` with `a = 2 + 1009 * 1013 * 1019 * 1049`, all images
are right and the loop returns `x + 2`. -/
theorem C62_not_certified : ∃ (a : ℤ) (es : List (Ev × Bool)), NoSkip es ∧
    (∀ pc ∈ allImages 1049 (fun _ _ => (a % 1049).toNat) es, pc.1.Prime ∧ ((pc.2 0 0 : ℤ) : ZMod pc.1) = (a : ZMod pc.1)) ∧
    ∃ s0 s, initSt 1 (fun _ => 1) 1049 (fun _ _ => (a % 1049).toNat) = some s0 ∧ run exExt 1 es s0 0 0 = .done s ∧
      (s.polys 0).lm = 1 ∧ (s.polys 0).qn 0 = 2 ∧ a ≠ 2 := by
  refine ⟨2 + 1009 * 1013 * 1019 * 1049,
    [(.image 1009 (fun _ _ => 2), false), (.image 1013 (fun _ _ => 2), false), (.image 1019 (fun _ _ => 2), false)], ?_, ?_, ?_⟩
  · intro e he
    simp only [List.mem_cons, List.not_mem_nil, or_false] at he
    rcases he with rfl | rfl | rfl <;> simp
  · intro pc hpc
    simp only [allImages, images, List.mem_cons, List.not_mem_nil, or_false] at hpc
    rcases hpc with rfl | rfl | rfl | rfl
    · exact ⟨by norm_num, by decide +kernel⟩
    · exact ⟨by norm_num, by decide +kernel⟩
    · exact ⟨by norm_num, by decide +kernel⟩
    · exact ⟨by norm_num, by decide +kernel⟩
  · have h : ∀ o : Option (St × Outcome), (∃ s0 s, o = some (s0, .done s) ∧ (s.polys 0).lm = 1 ∧ (s.polys 0).qn 0 = 2) ↔
        (match o with
          | some (_, .done s) => decide ((s.polys 0).lm = 1 ∧ (s.polys 0).qn 0 = 2)
          | _ => false) = true := by
      intro o
      constructor
      · rintro ⟨s0, s, rfl, h⟩
        simpa using h
      · intro h
        match o, h with
        | some (s0, .done s), h => exact ⟨s0, s, rfl, by simpa using h⟩
    obtain ⟨s0, s, e, h1, h2⟩ := (h ((initSt 1 (fun _ => 1) 1049
      (fun _ _ => ((2 + 1009 * 1013 * 1019 * 1049 : ℤ) % 1049).toNat)).map fun s0 => (s0, run exExt 1
        [(.image 1009 (fun _ _ => 2), false), (.image 1013 (fun _ _ => 2), false), (.image 1019 (fun _ _ => 2), false)]
        s0 0 0))).mpr (by decide +kernel)
    rw [Option.map_eq_some_iff] at e
    obtain ⟨s1, e1, e2⟩ := e
    obtain ⟨rfl, hr⟩ := Prod.mk.injEq .. ▸ e2
    exact ⟨s1, s, e1, hr, h1, h2, by norm_num⟩

end Verif.Props
