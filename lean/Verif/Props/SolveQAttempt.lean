import Verif.SolveQImg
import Verif.Props.Solve
import Verif.Props.EndToEndQq
import Verif.Spec.Lifted

/-! One call of `real_msolve_qq` over the rationals with good primes. -/
namespace Verif.Props
namespace SolveQ

open Verif.F4 Verif.Pairs Verif.Spec Verif.MulMatrix Verif.Fglm Verif.BM Verif.Hankel Verif.LinForms Verif.SolveQ Verif.EndToEndQq Verif.ShapeQ
open Verif.Groebner Verif.Orders Verif.ElimField
open Verif.ParamLift (Img Cfg PSt run tridx detidx GoodImg GoodThread)
open Verif.Spec.Text (GoodPrime LuckyPrime ExpandedQ idealQ scaled)
open Verif.Props.EndToEndQq (import_allQ Lucky ModOk TrOk Range lucky_exists first_ok apply_ok fOk_of firstPrime_spec nextGood_spec)
open Verif.Parse (qqPoly)
open Verif.Spec.Solutions (elimErr coordErr LiftOf DescribedQ)
open Verif.Solve (Att)
open Verif.VarOrder (Gens)
open MvPolynomial

variable {n : ℕ}

theorem drl_mo : (OKind.drl).mo (n := n) = (OKind.be 0).mo := ordKind_mo 0

theorem modOk_drl {tss : List (List Text.Mon)} {GQ : Set (MvPolynomial (Fin (0 + n)) ℚ)} {p : ℕ} {G : List (Poly (0 + n))} [hp : Fact p.Prime]
    (h : ModOk 0 n tss GQ p G) :
    IsReducedGroebner OKind.drl.mo (idealOver (ZMod p) (intGens (0 + n) tss)) {g | ∃ f ∈ G, g = toMv p f} ∧ (∀ f ∈ G, PolyOk .drl p f) ∧
      G.Pairwise fun a b => OKind.drl.lt (F4.lead a) (F4.lead b) := by
  obtain ⟨h1, h2, h3, h4⟩ := h.gb
  refine ⟨by rw [drl_mo]; exact h4, fun f hf => ?_, ?_⟩
  · have := h2 f hf
    exact ⟨this.head, by have := this.sorted; rwa [← ordKind_lt] at this, this.coeff⟩
  · have h5 : (OKind.drl).lt (n := 0 + n) = (OKind.be 0).lt := ordKind_lt 0
    rw [h5]
    exact h3

theorem slot_eq (ev : ℕ → ℕ) {k : ℕ} (hk : k < n) : slotSet (evl n 0) (ebl 0) ev k = slotCheck ev k := by
  unfold slotSet slotCheck Import.exportEv ebl evl
  simp [List.getD_eq_getElem?_getD, hk, Nat.add_comm]

theorem basis_unique {fuel fuel' : ℕ} {lmb lmb' : List (Mon n)} (hn : 1 ≤ n) {G : List (Poly n)}
    (hb : Hilbert.monomialBasis (G.map F4.lead) fuel = .done lmb) (hb' : Hilbert.monomialBasis (G.map F4.lead) fuel' = .done lmb') : lmb = lmb' := by
  obtain ⟨h1, h2⟩ := irr_iff hn hb
  obtain ⟨h3, h4⟩ := irr_iff hn hb'
  have hirr : ∀ {l : List (Mon n)}, l.Pairwise OKind.drl.lt → l.Nodup := fun h => h.imp fun {a b} hab he => by
    subst he
    exact OKind.drl.adm.irrefl _ hab
  refine List.Perm.eq_of_pairwise (le := OKind.drl.lt) ?_ h1 h3 ((List.perm_ext_iff_of_nodup (hirr h1) (hirr h3)).mpr fun m => by rw [h2, h4])
  intro a b _ _ hab hba
  exact absurd (OKind.drl.adm.trans _ _ _ hab hba) (OKind.drl.adm.irrefl _)

/-- The image modulo a later prime. -/
theorem later_img {p : ℕ} (hp31 : p < 2 ^ 31) {I : ∀ _ : Fact p.Prime, Ideal (MvPolynomial (Fin n) (ZMod p))} {G : List (Poly n)}
    (hG : ∀ _ : Fact p.Prime, IsReducedGroebner OKind.drl.mo (I ‹_›) {g | ∃ f ∈ G, g = toMv p f} ∧ (∀ f ∈ G, PolyOk .drl p f) ∧
      G.Pairwise fun a b => OKind.drl.lt (F4.lead a) (F4.lead b))
    {nsols : ℕ} {lms lmb : List (Mon n)} {fuel : ℕ} (hb : Hilbert.monomialBasis lms fuel = .done lmb) (hne : lmb ≠ []) {us : ℤ}
    (hD : ∀ last : Fin n, last.val = n - 1 → (divIdx last lms).length ≤ lmb.length ∧ ∃ extra, MatApply.extraOf last lms lmb = .ok extra ∧
      extra.length ≤ threshold us (lmb.length - (divIdx last lms).length))
    (hs : nsols = lmb.length) {g : Img} (h : LaterImg nsols lms lmb p G (some g)) :
    ∃ (_ : Fact p.Prime) (last : Fin n) (w : Polynomial (ZMod p)) (cs : ℕ → Polynomial (ZMod p)), last.val = n - 1 ∧ w.Monic ∧ Squarefree w ∧
      I ‹_› = Ideal.span ({Polynomial.aeval (X last) w} ∪ {g | ∃ k : Fin n, k < last ∧ g = X k + Polynomial.aeval (X last) (cs k)}) ∧
      IsImg p w cs n g := by
  unfold LaterImg at h
  split_ifs at h with hl
  rw [ne_eq, not_not] at hl
  obtain ⟨hp, nf, last, extra, M, ev0, vecinit, vvec, hg, sqf, hnf, hlast, hex, hM, hhg, hsqf, h⟩ := h
  obtain ⟨h1, h2, h3⟩ := hG hp
  obtain ⟨d1, extra', d2, d3⟩ := hD last hlast
  rw [hex] at d2
  obtain rfl : extra = extra' := by injection d2
  rw [MatApply.buildApply_eq nf hl d1 hex d3] at hM
  subst hl
  split_ifs at h with c1 c2
  · rw [ne_eq, not_not] at c1
    obtain ⟨r, img, hr, himg, e⟩ := h
    obtain rfl := Option.some.inj e
    have hm := modular_gb hp31 h1 h2 h3 hb hne hnf hlast us hM ev0 vecinit vvec hhg hsqf c2
    have hlv : (fun i j => Orders.ext ((G.map F4.lead).getD i 0) j) = fun i j => Orders.ext (Spec.lead (fieldPoly p (G.getD i []))) j := by
      funext i j
      rw [lead_fieldPoly]
      by_cases hi : i < G.length
      · simp [List.getD_eq_getElem?_getD, hi]
      · simp [List.getD_eq_getElem?_getD, hi, F4.lead]
    rw [List.length_map, hlv, MatApply.rows_slot (s' := slotCheck)] at hr
    · obtain ⟨r1, r2, r3, r4, -⟩ := hm.2 r hr
      exact ⟨hp, last, r.1, r.2, hlast, r2, r1, r4, himg⟩
    · intro i t _ k hk
      exact slot_eq _ hk
  · rw [ne_eq, not_not] at c1
    exact absurd (c1.trans hs) c2

/-! ### The rounds -/

theorem threads_mem {m nsols : ℕ} {Z : List (List ((Fin m → ℕ) × ℤ))} {tr : Tr m} {p0 : ℕ} {lms lmb : List (Mon m)} {err : Bool} {q q' : ℕ}
    {ts : List (ℕ × Option Img)} (h : Threads nsols Z tr p0 lms lmb err q ts q') (hq : Range q) :
    Range q' ∧ ∀ t ∈ ts, Range t.1 ∧ isBad t.1 Z = false ∧
      ∀ g, t.2 = some g → ∃ G, Applied 0 Z tr t.1 (some G) ∧ LaterImg nsols lms lmb t.1 G (some g) := by
  induction h with
  | nil q => exact ⟨hq, by simp⟩
  | failed h1 _ _ ih =>
    obtain ⟨r1, r2⟩ := nextGood_spec h1 hq
    obtain ⟨i1, i2⟩ := ih r1
    refine ⟨i1, fun t ht => ?_⟩
    rcases List.mem_cons.mp ht with rfl | ht
    · exact ⟨r1, r2, by simp⟩
    · exact i2 t ht
  | image h1 h2 h3 _ ih =>
    obtain ⟨r1, r2⟩ := nextGood_spec h1 hq
    obtain ⟨i1, i2⟩ := ih r1
    refine ⟨i1, fun t ht => ?_⟩
    rcases List.mem_cons.mp ht with rfl | ht
    · refine ⟨r1, r2, fun g hg => ⟨_, h2, ?_⟩⟩
      simp only at hg
      rwa [hg] at h3
    · exact i2 t ht

theorem rounds_mem {m nsols nt : ℕ} {Z : List (List ((Fin m → ℕ) × ℤ))} {tr : Tr m} {p0 : ℕ} {lms lmb : List (Mon m)} {q : ℕ}
    {rs : List (Bool × List (ℕ × Option Img))} (h : Rounds nsols Z tr p0 lms lmb nt q rs) (hq : Range q) :
    ∀ r ∈ rs, ∀ t ∈ r.2, Range t.1 ∧ isBad t.1 Z = false ∧
      ∀ g, t.2 = some g → ∃ G, Applied 0 Z tr t.1 (some G) ∧ LaterImg nsols lms lmb t.1 G (some g) := by
  induction h with
  | nil q => simp
  | cons h1 _ _ _ ih =>
    obtain ⟨i1, i2⟩ := threads_mem h1 hq
    intro r hr
    rcases List.mem_cons.mp hr with rfl | hr
    · exact i2
    · exact ih i1 r hr

/-! ### The result -/

theorem prod_dvd {U : List ℕ} (hp : ∀ p ∈ U, p.Prime) (hn : U.Nodup) {x : ℤ} (hd : ∀ p ∈ U, (p : ℤ) ∣ x) : ((U.prod : ℕ) : ℤ) ∣ x := by
  induction U with
  | nil => simp
  | cons p U ih =>
    rw [List.nodup_cons] at hn
    rw [List.prod_cons, Nat.cast_mul]
    refine IsCoprime.mul_dvd ?_ (hd p List.mem_cons_self)
      (ih (fun g hg => hp g (List.mem_cons_of_mem _ hg)) hn.2 fun g hg => hd g (List.mem_cons_of_mem _ hg))
    refine Nat.isCoprime_iff_coprime.mpr (Nat.coprime_list_prod_right_iff.mpr fun q hq => ?_)
    exact (Nat.coprime_primes (hp p List.mem_cons_self) (hp q (List.mem_cons_of_mem _ hq))).mpr fun h => hn.1 (h ▸ hq)

theorem getD_map_range {α : Type*} (f : ℕ → α) (d : α) {i m : ℕ} (h : i < m) : ((List.range m).map f).getD i d = f i := by
  simp [List.getD_eq_getElem?_getD, h]

/-- The lists that are printed. -/
theorem lifted {w : Polynomial ℚ} {c : ℕ → Polynomial ℚ} {nv : ℕ} {img : Img} {inv : ℤ → ℤ → ℤ} {junk : ℤ} (hinv : CRT.InvSpec inv)
    {rounds : List (Bool × List (ℕ × Option Img))} (hd : ∀ r ∈ rounds, ∀ t ∈ r.2, ¬ t.1 ∣ w.natDegree)
    (h0 : ImgRed w c (nv - 1) img) (hr : ∀ r ∈ rounds, ∀ t ∈ r.2, ∀ g, t.2 = some g → t.1 = g.p ∧ ImgRed w c (nv - 1) g)
    (hnd : (img.p :: (rounds.flatMap Prod.snd).map Prod.fst).Nodup) {s : Lift.St (Option PSt)} {m : PSt}
    (h : run ⟨img.elen - 1, nv - 1, tridx img, detidx img, inv, junk⟩ img rounds = .done s) (hm : s.m = some m) :
    LiftOf (img.p :: (rounds.flatMap Prod.snd).map Prod.fst) w c (nv - 1) (paramData nv (img.elen - 1) m).elim (paramData nv (img.elen - 1) m).denom
      ((paramData nv (img.elen - 1) m).coords.getD []) := by
  have hns : img.elen - 1 = w.natDegree := by rw [h0.elen]; rfl
  rw [hns] at h ⊢
  have hgood : ∀ g, ImgRed w c (nv - 1) g → GoodImg ⟨w.natDegree, nv - 1, tridx img, detidx img, inv, junk⟩ g :=
    fun g hg => ⟨hg.prime, hg.elen, hg.monic, hg.cle⟩
  have hin : ParamLift65.Input ⟨w.natDegree, nv - 1, tridx img, detidx img, inv, junk⟩ img rounds := by
    refine ⟨hinv, hgood _ h0, h0.elt, fun i _ j hj => h0.clt i j hj, ?_, ?_, hnd⟩
    · intro r hr' t ht g hg
      obtain ⟨e1, e2⟩ := hr r hr' t ht g hg
      exact ⟨e1, hgood _ e2⟩
    · intro r hr' t ht g hg
      obtain ⟨e1, e2⟩ := hr r hr' t ht g hg
      exact ⟨lt_trans e2.lt (by norm_num), e2.elt, fun i _ j hj => e2.clt i j hj⟩
  have hgiven : ∀ g, ParamLift65.Given img rounds g → ImgRed w c (nv - 1) g ∧ g.p ∈ img.p :: (rounds.flatMap Prod.snd).map Prod.fst := by
    rintro g (rfl | hg)
    · exact ⟨h0, List.mem_cons_self⟩
    · obtain ⟨r, hr', ht⟩ := List.mem_flatMap.mp hg
      exact ⟨(hr r hr' _ ht g rfl).2, List.mem_cons_of_mem _ (List.mem_map.mpr ⟨_, hg, rfl⟩)⟩
  obtain ⟨m', hm', hcf, U, u1, u2, u3, u4⟩ := C65_reduces _ img rounds hin img.clen rfl
    (fun r hr' t ht g hg => by
      have := (hr r hr' t ht g hg).2
      rw [this.clen, h0.clen]) s h
  obtain ⟨m'', q, hm'', q1, q2, q3, q4, q5⟩ := C65_confirmed _ img rounds hin s h
  rw [hm] at hm' hm''
  obtain rfl := Option.some.inj hm'
  obtain rfl := Option.some.inj hm''
  simp only at hcf q3 q4 q5
  have hE : ∀ i, i ≤ w.natDegree → (paramData nv w.natDegree m).elim.getD i 0 = m.E i := fun i hi => getD_map_range _ _ (by omega)
  have hC : ∀ k, k < nv - 1 → ((paramData nv w.natDegree m).coords.getD []).getD k ([], 1) = ((List.range w.natDegree).map (m.C k), m.cf k) :=
    fun k hk => getD_map_range _ _ hk
  have hee : ∀ i, i ≤ w.natDegree → elimErr w (paramData nv w.natDegree m).elim i = m.E i * (w.coeff i).den - m.E w.natDegree * (w.coeff i).num := by
    intro i hi
    unfold elimErr
    rw [hE i hi, hE _ le_rfl]
  have hce : ∀ k, k < nv - 1 → ∀ j, j < w.natDegree →
      coordErr w (c k) (paramData nv w.natDegree m).elim (((paramData nv w.natDegree m).coords.getD []).getD k ([], 1)) j =
        m.C k j * ((scaled w (c k)).coeff j).den - m.E w.natDegree * m.cf k * w.natDegree * ((scaled w (c k)).coeff j).num := by
    intro k hk j hj
    unfold coordErr
    rw [hC k hk, hE _ le_rfl, getD_map_range _ _ hj]
  have hprime : ∀ p ∈ U.map Img.p, p.Prime := by
    intro p hp
    obtain ⟨g, hg, rfl⟩ := List.mem_map.mp hp
    exact (hgiven g (u3 g hg).1).1.prime
  have hdE : ∀ p ∈ U.map Img.p, ∀ i, i ≤ w.natDegree → (p : ℤ) ∣ elimErr w (paramData nv w.natDegree m).elim i := by
    intro p hp i hi
    obtain ⟨g, hg, rfl⟩ := List.mem_map.mp hp
    rw [hee i hi]
    refine Int.ModEq.dvd (Int.ModEq.symm ?_)
    calc m.E i * (w.coeff i).den ≡ m.E w.natDegree * g.e i * (w.coeff i).den [ZMOD g.p] := ((u4 g hg).elim i hi).mul_right _
      _ = m.E w.natDegree * ((w.coeff i).den * g.e i) := by ring
      _ ≡ m.E w.natDegree * (w.coeff i).num [ZMOD g.p] := ((hgiven g (u3 g hg).1).1.e i hi).mul_left _
  have hdC : ∀ p ∈ U.map Img.p, ∀ k, k < nv - 1 → ∀ j, j < w.natDegree → (p : ℤ) ∣
      coordErr w (c k) (paramData nv w.natDegree m).elim (((paramData nv w.natDegree m).coords.getD []).getD k ([], 1)) j := by
    intro p hp k hk j hj
    obtain ⟨g, hg, rfl⟩ := List.mem_map.mp hp
    rw [hce k hk j hj]
    refine Int.ModEq.dvd (Int.ModEq.symm ?_)
    calc m.C k j * ((scaled w (c k)).coeff j).den ≡
          m.E w.natDegree * m.cf k * w.natDegree * ParamLift65.coordCoeff g k j * ((scaled w (c k)).coeff j).den [ZMOD g.p] :=
          ((u4 g hg).coord k hk j hj).mul_right _
      _ = m.E w.natDegree * m.cf k * w.natDegree * (((scaled w (c k)).coeff j).den * ParamLift65.coordCoeff g k j) := by ring
      _ ≡ _ [ZMOD g.p] := ((hgiven g (u3 g hg).1).1.c k hk j).mul_left _
  obtain ⟨rq, hrq, htq⟩ := List.mem_flatMap.mp q1
  have hqr := (hr rq hrq _ htq q rfl).2
  refine ⟨by simp [paramData], ?_, by simp [paramData], ?_, by simp [paramData], ?_, U.map Img.p, ?_, u2, ?_, ?_, ?_, ?_, ?_⟩
  · rw [hE _ le_rfl]
    exact fun h0 => q3 (h0 ▸ dvd_zero _)
  · intro i hi
    rw [hE _ (by omega)]
    exact getD_map_range _ _ hi
  · intro q hq
    simp only [paramData, Option.getD_some, List.mem_map, List.mem_range] at hq
    obtain ⟨k, hk, rfl⟩ := hq
    exact ⟨by simp, hcf k hk⟩
  · intro hU
    rw [List.map_eq_nil_iff] at hU
    rw [hU] at u1
    simp at u1
  · intro p hp
    refine ⟨?_, hprime p hp⟩
    obtain ⟨g, hg, rfl⟩ := List.mem_map.mp hp
    exact (hgiven g (u3 g hg).1).2
  · exact fun p hp => ⟨hdE p hp, hdC p hp⟩
  · refine ⟨q.p, List.mem_cons_of_mem _ (List.mem_map.mpr ⟨_, q1, rfl⟩), ?_, hqr.prime, by rw [hE _ le_rfl]; exact q3, ?_, ?_⟩
    · intro hq
      obtain ⟨g, hg, hgq⟩ := List.mem_map.mp hq
      exact q2 (hgq ▸ (u3 g hg).2)
    · intro i hi
      rw [hee i hi]
      refine Int.ModEq.dvd (Int.ModEq.symm ?_)
      calc m.E i * (w.coeff i).den ≡ m.E w.natDegree * q.e i * (w.coeff i).den [ZMOD q.p] := (q4 i hi).mul_right _
        _ = m.E w.natDegree * ((w.coeff i).den * q.e i) := by ring
        _ ≡ m.E w.natDegree * (w.coeff i).num [ZMOD q.p] := (hqr.e i hi).mul_left _
    · intro k hk hcfk j hj hs
      have hjl : j < q.clen k := by
        rw [hqr.clen]
        simp only [hk, hs, ne_eq, not_false_eq_true, and_self, if_true]
        omega
      have hjd : j < w.natDegree := lt_of_lt_of_le hjl (hqr.cle k)
      have hqp := Nat.prime_iff_prime_int.mp hqr.prime
      rw [hC k hk] at hcfk
      rw [hce k hk j hjd]
      refine Int.ModEq.dvd (Int.ModEq.symm ?_)
      have h1 := q5 k hk (fun h2 => by
        rcases hqp.dvd_or_dvd h2 with h2 | h2
        · exact hcfk h2
        · exact hd rq hrq _ htq (Int.natCast_dvd_natCast.mp h2)) j hjl
      have h2 := hqr.c k hk j
      unfold ParamLift65.coordCoeff at h2
      rw [if_pos hjl] at h2
      calc m.C k j * ((scaled w (c k)).coeff j).den ≡
            m.E w.natDegree * m.cf k * w.natDegree * q.c k j * ((scaled w (c k)).coeff j).den [ZMOD q.p] := h1.mul_right _
        _ = m.E w.natDegree * m.cf k * w.natDegree * (((scaled w (c k)).coeff j).den * q.c k j) := by ring
        _ ≡ _ [ZMOD q.p] := h2.mul_left _
  · exact fun i hi hlt => Int.eq_zero_of_abs_lt_dvd (prod_dvd hprime u2 fun p hp => hdE p hp i hi) hlt
  · exact fun k hk j hj hlt => Int.eq_zero_of_abs_lt_dvd (prod_dvd hprime u2 fun p hp => hdC p hp k hk j hj) hlt

/-- What one call says about the ideal. -/
def AttGood {N : ℕ} (I : Ideal (MvPolynomial (Fin N) ℚ)) (ps : List ℕ) : AttQ → Prop
  | .empty => I = ⊤
  | .positive => ¬ Module.Finite ℚ (MvPolynomial (Fin N) ℚ ⧸ I)
  | .ok d nsols m => I ≠ ⊤ ∧ Module.Finite ℚ (MvPolynomial (Fin N) ℚ ⧸ I) ∧ d = Module.finrank ℚ (MvPolynomial (Fin N) ℚ ⧸ I) ∧ 0 < d ∧
      (nsols = d → d + 1 < 2 ^ 32 → ∃ (last : Fin N) (w : Polynomial ℚ) (c : Fin N → Polynomial ℚ), last.val = N - 1 ∧ Shape I last w c ∧ w.Separable ∧
        w.natDegree = d ∧ LiftOf ps w (fun k => if hk : k < N then c ⟨k, hk⟩ else 0) (N - 1) (paramData N nsols m).elim (paramData N nsols m).denom
          ((paramData N nsols m).coords.getD []))
  | .failed => True
  | .generic => True
  | .bad => True

theorem outcome_build {p : ℕ} [hp : Fact p.Prime] (hn : 1 ≤ n) {us : ℤ} {chk : Bool} {G : List (Poly n)} {d : ℕ} {w : Polynomial (ZMod p)}
    {cs : ℕ → Polynomial (ZMod p)} (h : Solve.Outcome p us chk G (.ok d w cs)) {fuel : ℕ} {lmb : List (Mon n)}
    (hb : Hilbert.monomialBasis (G.map F4.lead) fuel = .done lmb) (last : Fin n) (hl : last.val = n - 1) :
    (divIdx last (G.map F4.lead)).length ≤ lmb.length ∧ ∃ extra, MatApply.extraOf last (G.map F4.lead) lmb = .ok extra ∧
      extra.length ≤ threshold us (lmb.length - (divIdx last (G.map F4.lead)).length) := by
  unfold Solve.Outcome at h
  split_ifs at h
  obtain ⟨fuel', lmb', nf, last', hb', -, hl', h | ⟨M, hM, -⟩⟩ := h
  · exact absurd h.2 (by simp)
  · obtain rfl := basis_unique hn hb hb'
    obtain rfl : last = last' := Fin.ext (by omega)
    exact MatApply.build_ok hM

theorem attempt_ok {us : ℤ} {nt : ℕ} {g : Gens} {chk : Bool} {ps : List ℕ} {a : AttQ} (hnv : 1 ≤ g.nvars) {tss : List (List Text.Mon)}
    (hts : tss ≠ []) (hne : ∀ ts ∈ tss, ts ≠ []) (hE : ∀ ts ∈ tss, ExpandedQ (0 + g.nvars) ts)
    (hread : readGensQ g.nvars g.exps g.mpz 0 g.lens = some (tss.map (qqPoly (0 + g.nvars)))) (h : AttemptQ us nt g chk ps a)
    (hgp : ∀ p ∈ ps, GoodPrime (n := 0 + g.nvars) (OKind.be 0).mo tss p) (hnd : ps.Nodup) : AttGood (idealQ (0 + g.nvars) tss) ps a := by
  obtain ⟨gens, im, ng, Z, p0, hp0, tr, G, a0, h1, h2, ⟨g0, g1, i1, i2, i3⟩, h4, h5, h6, h7⟩ := h
  rw [hread] at h1
  obtain rfl := Option.some.inj h1
  rw [import_allQ hts hE] at h2
  injection h2 with e1 e2
  subst e1
  obtain ⟨Z', e1, tss', hperm, hZ⟩ := primitive_spec (by omega) hne hE i1 i2
  rw [i3] at e1
  obtain rfl := Option.some.inj e1
  obtain ⟨GQ, hL⟩ := lucky_exists hE
  have hmem : p0 ∈ ps := by
    cases a0 with
    | ok d w cs =>
      obtain ⟨_, _, _, _, _, _, _, _, _, _, _, h8, _⟩ := h7
      rw [h8]
      exact List.mem_cons_self
    | empty => rw [h7.2]; simp
    | positive => rw [h7.2]; simp
    | failed => rw [h7.2]; simp
    | generic => rw [h7.2]; simp
  obtain ⟨hM, hT⟩ := first_ok hne hL hperm hZ (by rintro t ⟨⟩) h4 (hgp p0 hmem).lucky h5
  have hr0 := (firstPrime_spec h4).1
  obtain ⟨b1, b2, b3⟩ := modOk_drl hM
  obtain ⟨hg1, hg2⟩ := Solve.outcome_gb hr0.lt31 (by omega) b1 b2 b3 h6
  obtain ⟨l1, l2⟩ := hL.lucky p0 (hgp p0 hmem).lucky
  obtain ⟨d1, d2, d3⟩ := lucky_dim p0 hL.gb l2
  have hI := idealOver_rat hE
  rw [hI] at d1 d2 d3
  cases a0 with
  | empty =>
    obtain ⟨rfl, -⟩ := h7
    exact d1.mpr hg1
  | positive =>
    obtain ⟨rfl, -⟩ := h7
    exact fun hf => hg1 (d2.mp hf)
  | failed =>
    obtain ⟨rfl, -⟩ := h7
    trivial
  | generic =>
    obtain ⟨rfl, -⟩ := h7
    trivial
  | ok d w' cs =>
    obtain ⟨img, inv, junk, fuel, lmb, rounds, h8, hinv, hb, hR, hrun, rfl, h9⟩ := h7
    rcases h9 with ⟨s, m, hs, hm, rfl⟩ | ⟨-, rfl⟩
    swap
    · trivial
    obtain ⟨g1, g2, g3, g4, -⟩ := hg1
    have hlen : lmb.length = d := by
      obtain ⟨B, -⟩ := C60_basis (by omega) b1 b2 hb
      rw [g3, Module.finrank_eq_card_basis B, Fintype.card_fin]
    refine ⟨fun ht => g1 (d1.mp ht), d2.mpr g2, by rw [d3]; exact g3, g4, fun hns hsmall => ?_⟩
    have hD := outcome_build (by omega) h6 hb
    have hw0 : w' ≠ 0 := by
      rintro rfl
      rw [h8.2.1] at hns
      simp [Lift.len] at hns
      omega
    have hdeg : w'.natDegree = d := by
      rw [h8.2.1, Lift.len_eq hw0] at hns
      simpa using hns
    obtain ⟨s1, s2, s3⟩ := hg2 hdeg
    have hN : 0 + g.nvars - 1 < 0 + g.nvars := by omega
    have s3 := s3 ⟨0 + g.nvars - 1, hN⟩ rfl
    have hL' := hL
    have hgbQ := hL.gb
    rw [hI] at hgbQ
    obtain ⟨W, Cs, w1, w2, w3, hS⟩ := shape_lift p0 hgbQ l1 l2 (shape_of_span s1 (last := ⟨0 + g.nvars - 1, hN⟩) (c := fun k => cs k) (by
      rw [s3]
      simp only [last_ne (last := (⟨0 + g.nvars - 1, hN⟩ : _root_.Fin (0 + g.nvars))) rfl]))
    have hWd : (W.map (inc p0)).natDegree = d := by
      rw [w1.natDegree_map, ← w1.natDegree_map (red p0), w2, hdeg]
    have hgpS : ∀ p ∈ _, _ := fun p hp => And.intro ((hgp p hp).degree _ _ _ hS (by rw [hWd]; omega)) ((hgp p hp).coord _ _ _ hS)
    obtain ⟨hsep, h0⟩ := img_red hr0.lt31 hgbQ l1 l2 rfl s1 s2 s3 hS (by rw [hWd]; exact hsmall) (hgpS p0 hmem).1 (hgpS p0 hmem).2 h8
    have hmemr : ∀ r ∈ rounds, ∀ t ∈ r.2, t.1 ∈ p0 :: (rounds.flatMap Prod.snd).map Prod.fst := fun r hr t ht =>
      List.mem_cons_of_mem _ (List.mem_map.mpr ⟨t, List.mem_flatMap.mpr ⟨r, hr, ht⟩, rfl⟩)
    have hall := rounds_mem hR hr0
    have hp0 : img.p = p0 := h8.1
    have hr : ∀ r ∈ rounds, ∀ t ∈ r.2, ∀ im, t.2 = some im → t.1 = im.p ∧
        ImgRed (W.map (inc p0)) (fun k => if hk : k < 0 + g.nvars then (Cs ⟨k, hk⟩).map (inc p0) else 0) (0 + g.nvars - 1) im := by
      intro r hr t ht im him
      obtain ⟨r1, r2, r3⟩ := hall r hr t ht
      obtain ⟨G', ⟨C, F, c1, c2, c3, c4, c5⟩, hlat⟩ := r3 im him
      have hgt := hgp _ (hmemr r hr t ht)
      have hF := fOk_of hne hL hperm hZ c4 c2 (by rw [c3]; exact r1) (by rw [c3]; exact hgt.lucky) (by rw [c3]; exact r2) (by rw [c3]; exact c1)
      have hM' := apply_ok hL hF (by rw [c3]; exact hgt.lucky) hT c5
      rw [c3] at hM'
      obtain ⟨hpt, last, w2', cs', q1, q2, q3, q4, q5⟩ := later_img (I := fun _ => idealOver (ZMod t.1) (intGens (0 + g.nvars) tss)) r1.lt31
        (fun _ => modOk_drl hM') hb (by intro h0; rw [h0] at hlen; simp at hlen; omega) hD (by rw [hns, hlen]) hlat
      obtain rfl : last = ⟨0 + g.nvars - 1, hN⟩ := Fin.ext q1
      obtain ⟨k1, k2⟩ := hL.lucky t.1 hgt.lucky
      exact ⟨q5.1.symm, (img_red r1.lt31 hgbQ k1 k2 rfl q2 q3 q4 hS (by rw [hWd]; exact hsmall) (hgpS _ (hmemr r hr t ht)).1
        (hgpS _ (hmemr r hr t ht)).2 q5).2⟩
    refine ⟨⟨0 + g.nvars - 1, hN⟩, W.map (inc p0), fun k => (Cs k).map (inc p0), rfl, hS, hsep, hWd, ?_⟩
    have := lifted (nv := 0 + g.nvars) hinv (fun r hr t ht => (hgpS _ (hmemr r hr t ht)).1) h0 hr (by rw [hp0]; exact hnd) (s := s) (m := m)
      (junk := junk) (by rw [show 0 + g.nvars - 1 = g.nvars - 1 by omega]; exact hs) hm
    rw [hp0] at this
    exact this

/-- The same with the number of variables instead of `0 + n`. -/
theorem attempt_good {us : ℤ} {nt : ℕ} {g : Gens} {chk : Bool} {ps : List ℕ} {a : AttQ} (hnv : 1 ≤ g.nvars) {tss : List (List Text.Mon)}
    (hts : tss ≠ []) (hne : ∀ ts ∈ tss, ts ≠ []) (hE : ∀ ts ∈ tss, ExpandedQ g.nvars ts)
    (hread : readGensQ g.nvars g.exps g.mpz 0 g.lens = some (tss.map (qqPoly g.nvars))) (h : AttemptQ us nt g chk ps a)
    (hgp : ∀ p ∈ ps, GoodPrime (n := g.nvars) OKind.drl.mo tss p) (hnd : ps.Nodup) : AttGood (idealQ g.nvars tss) ps a := by
  have key : ∀ N, N = 0 + g.nvars → (∀ ts ∈ tss, ExpandedQ N ts) → readGensQ g.nvars g.exps g.mpz 0 g.lens = some (tss.map (qqPoly N)) →
      (∀ p ∈ ps, GoodPrime (n := N) OKind.drl.mo tss p) → AttGood (idealQ N tss) ps a := by
    rintro N rfl hE hread hgp
    refine attempt_ok hnv hts hne hE hread h (fun p hp => ?_) hnd
    have := hgp p hp
    have hmo : (OKind.drl).mo (n := 0 + g.nvars) = (OKind.be 0).mo := ordKind_mo 0
    rwa [hmo] at this
  exact key g.nvars (Nat.zero_add _).symm hE hread hgp

end SolveQ
end Verif.Props
