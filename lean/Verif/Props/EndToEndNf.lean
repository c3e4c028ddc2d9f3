import Verif.EndToEndNf
import Verif.Props.EndToEnd
import Verif.Props.NormalForm

/-!
C76: from the input file to the printed normal forms.
-/
namespace Verif.Props
namespace EndToEndNf

open Verif.Orders Verif.Import Verif.Normalize Verif.Parse Verif.F4 Verif.Spec Verif.EndToEnd Verif.EndToEndNf Verif.Groebner
open Verif.Spec.Text (File FileOk FirstNum InnerNum Expanded)
open Verif.Props.EndToEnd

theorem valid_poly {n p : ℕ} {ts : List Text.Mon} (hE : Expanded p n ts) : invalid ((ffPoly n p ts).map Prod.fst) = false := by
  have key : ∀ t ∈ ts, t.numer % (p : ℤ) ≠ 0 := fun t ht h => hE.coeff t ht (Int.dvd_of_emod_eq_zero h)
  cases ts with
  | nil => rfl
  | cons t ts =>
    simp only [invalid, ffPoly, List.any_eq_false, List.mem_map, List.map_cons, List.mem_cons]
    rintro x (rfl | ⟨y, ⟨u, hu, rfl⟩, rfl⟩)
    · have h1 := key t List.mem_cons_self
      simp only [addUntil, beq_iff_eq]
      split_ifs
      · exact h1
      · intro h0
        rw [h0] at h1
        simp at h1
    · simpa using key u (List.mem_cons_of_mem _ hu)

/-- All polynomials but the last `k` are imported. -/
theorem import_first {n p k : ℕ} {tss : List (List Text.Mon)} (hE : ∀ ts ∈ tss, Expanded p n ts) :
    importGens (fun f => invalid (f.map Prod.fst)) k (tss.map (ffPoly n p)) =
      if tss.length ≤ k then .stop else .ok ((tss.take (tss.length - k)).map (ffPoly n p)) ((tss.length - k : ℕ) : ℤ) := by
  have hf : ∀ l : List (List Text.Mon), (∀ ts ∈ l, ts ∈ tss) → (l.map (ffPoly n p)).filter (fun f => invalid (f.map Prod.fst)) = [] := by
    intro l hl
    rw [List.filter_eq_nil_iff]
    intro g hg
    obtain ⟨ts, hts, rfl⟩ := List.mem_map.mp hg
    simp [valid_poly (hE ts (hl ts hts))]
  have hs : ∀ l : List (List Text.Mon), (∀ ts ∈ l, ts ∈ tss) →
      (l.map (ffPoly n p)).filter (fun f => !invalid (f.map Prod.fst)) = l.map (ffPoly n p) := by
    intro l hl
    rw [List.filter_eq_self]
    intro g hg
    obtain ⟨ts, hts, rfl⟩ := List.mem_map.mp hg
    simp [valid_poly (hE ts (hl ts hts))]
  unfold importGens
  simp only [hf tss (fun _ h => h), List.length_nil, Nat.cast_zero, if_true, List.length_map]
  by_cases h1 : tss.length ≤ k
  · rw [if_pos (by omega), if_pos h1]
  · have e1 : ((tss.length : ℤ)).toNat = tss.length := by omega
    have e2 : ((tss.length : ℤ) - k).toNat = tss.length - k := by omega
    rw [if_neg (by omega), if_neg h1, if_neg (by omega), e1, e2, ← List.map_take, ← List.map_take,
      hf _ (fun ts h => List.mem_of_mem_take h), hs _ (fun ts h => List.mem_of_mem_take h), List.length_nil, Nat.cast_zero, sub_zero,
      Nat.cast_sub (by omega)]

theorem range_set {n p : ℕ} (G : List (Poly n)) :
    { g | ∃ k ∈ List.range G.length, g = toMv p (G.getD k []) } = { g | ∃ f ∈ G, g = toMv p f } := by
  ext g
  constructor
  · rintro ⟨k, hk, rfl⟩
    have hk := List.mem_range.mp hk
    exact ⟨_, List.getElem_mem hk, by rw [List.getD_eq_getElem _ _ hk]⟩
  · rintro ⟨f, hf, rfl⟩
    obtain ⟨k, hk, rfl⟩ := List.mem_iff_getElem.mp hf
    exact ⟨k, List.mem_range.mpr hk, by rw [List.getD_eq_getElem _ _ hk]⟩

theorem forall₂_imp_mem {α β : Type} {R S : α → β → Prop} {l : List α} {m : List β} (h : List.Forall₂ R l m)
    (hi : ∀ a ∈ l, ∀ b ∈ m, R a b → S a b) : List.Forall₂ S l m := by
  induction h with
  | nil => exact .nil
  | cons hab _ ih =>
    exact .cons (hi _ List.mem_cons_self _ List.mem_cons_self hab)
      (ih fun a ha b hb => hi a (List.mem_cons_of_mem _ ha) b (List.mem_cons_of_mem _ hb))

/-- The polynomials used for the reduction are a Gröbner basis of the ideal generated by the polynomials in the file. -/
theorem reducers_spec {n nev p : ℕ} (hnev : nev < n) [hF : Fact p.Prime] (hp2 : p < 2 ^ 31) {tss : List (List Text.Mon)}
    (hne : ∀ ts ∈ tss, ts ≠ []) (h0 : ∀ ts ∈ tss, ∀ t ∈ ts.head?, FirstNum t) (hE : ∀ ts ∈ tss, Expanded p n ts) {isGb : Bool}
    (hgb : isGb = true → IsGroebner (ordKind nev).mo (inputIdeal n p tss) { q | ∃ ts ∈ tss, q = Text.poly p n ts })
    {G : List (Poly n)} (h : Reducers isGb n nev p (tss.map (ffPoly n p)) G) :
    (∀ g ∈ G, PolyOk (ordKind nev) p g) ∧ IsGroebner (ordKind nev).mo (inputIdeal n p tss) { g | ∃ f ∈ G, g = toMv p f } := by
  have hp : p.Prime := hF.out
  cases isGb with
  | true =>
    obtain ⟨F0, h1, h2⟩ := h
    have h1' : List.Forall₂ (ImportPoly n nev p) (tss.map (ffPoly n p)) F0 := by
      rw [List.forall₂_map_left_iff] at h1 ⊢
      exact forall₂_imp_mem h1 fun ts hts g _ hg => importOnce_poly hp hp2 (hne ts hts) (h0 ts hts) (hE ts hts) hg
    obtain ⟨k1, k2⟩ := import_ideal hnev hp hp2 hne h0 hE h1'
    refine ⟨fun g hg => k1 g (h2.mem_iff.mp hg), ?_, ?_⟩
    · rintro g ⟨f, hf, rfl⟩
      rw [← k2]
      exact Ideal.subset_span ⟨f, h2.mem_iff.mp hf, rfl⟩
    · intro f hf hf0
      obtain ⟨q, ⟨ts, hts, rfl⟩, hq0, hle⟩ := (hgb rfl).2 f hf hf0
      obtain ⟨i, hi, rfl⟩ := List.mem_iff_getElem.mp hts
      rw [List.forall₂_map_left_iff] at h1'
      have hi' : i < F0.length := by rw [← h1'.length_eq]; exact hi
      obtain ⟨-, u, hu0, hu⟩ := importPoly_spec hnev hp hp2 (hne _ hts) (h0 _ hts) (hE _ hts)
        ((List.forall₂_iff_get.mp h1').2 i hi hi')
      simp only [List.get_eq_getElem] at hu
      refine ⟨_, ⟨_, h2.mem_iff.mpr (List.getElem_mem hi'), rfl⟩, ?_, ?_⟩
      · rw [hu]
        exact mul_ne_zero (by rwa [Ne, MvPolynomial.C_eq_zero]) hq0
      · rw [hu, ← MvPolynomial.smul_eq_C_mul,
          (ordKind nev).mo.degree_smul_of_mem_nonZeroDivisors (mem_nonZeroDivisors_of_ne_zero hu0)]
        exact hle
  | false =>
    obtain ⟨F0, F, C, s, h1, h2, h4, h5, h6, h7, h8, h9⟩ := h
    obtain ⟨k1, k2⟩ := import_ideal hnev hp hp2 hne h0 hE h1
    obtain ⟨O, p', m, u, v⟩ := C
    simp only at h4 h5
    subst h4
    subst h5
    have hC := Run_cfg h6 hp hp2
    obtain ⟨c1, c2, -⟩ := (C44_reduced hC fun f hf => k1 f (h2.mem_iff.mp hf)).2 s G h7 h8 h9
    refine ⟨c2, ?_⟩
    have e : Ideal.span { g | ∃ f ∈ F, g = toMv p' f } = inputIdeal n p' tss := by
      rw [← k2]
      congr 1
      ext g
      exact exists_congr fun f => and_congr_left' h2.mem_iff
    rw [← e]
    exact c1.1

/-- The parts of an execution: Gröbner basis, polynomials to be reduced, results. -/
theorem run_parts {f : File} {names : List (List Char)} {p nev k : ℕ} {tss : List (List Text.Mon)} (h : InputOk f names p tss)
    {isGb : Bool} {out : List Char} (hr : Verif.EndToEndNf.Run isGb nev k f.text out)
    (hgb : have : Fact p.Prime := ⟨h.prime⟩
      isGb = true → IsGroebner (ordKind nev).mo (inputIdeal names.length p (tss.take (tss.length - k)))
        { q | ∃ ts ∈ tss.take (tss.length - k), q = Text.poly p names.length ts }) :
    have : Fact p.Prime := ⟨h.prime⟩
    nev < names.length ∧ 0 < k ∧ k < tss.length ∧ ∃ (G T : List (Poly names.length)) (N : List (Option (Poly names.length))),
      (∀ g ∈ G, PolyOk (ordKind nev) p g) ∧
      IsGroebner (ordKind nev).mo (inputIdeal names.length p (tss.take (tss.length - k))) { g | ∃ f ∈ G, g = toMv p f } ∧
      List.Forall₂ (fun ts t => InPoly p t ∧ toMv p t = Text.poly p names.length ts) (tss.drop (tss.length - k)) T ∧
      NfRun (ordKind nev) p G (List.range G.length) T N ∧ out = printNf names nev N := by
  have hF : Fact p.Prime := ⟨h.prime⟩
  obtain ⟨names', p', ps, im, ng, G, T, N, h1, hk, h2, h3, h4, h5, h6, h7⟩ := hr
  rw [read_file h] at h1
  have h1 := Option.some.inj h1
  injection h1 with e1 e2 e3
  have e2 : p = p' := by exact_mod_cast e2
  subst e1
  subst e2
  injection e3 with e3
  subst e3
  rw [import_first h.expanded] at h3
  split_ifs at h3 with hlen
  injection h3 with e4 e5
  subst e4
  have sub1 : ∀ ts ∈ tss.take (tss.length - k), ts ∈ tss := fun ts hts => List.mem_of_mem_take hts
  have sub2 : ∀ ts ∈ tss.drop (tss.length - k), ts ∈ tss := fun ts hts => List.mem_of_mem_drop hts
  obtain ⟨r1, r2⟩ := reducers_spec h2 h.file.small (fun ts hts => h.file.terms ts (sub1 ts hts)) (fun ts hts => h.first ts (sub1 ts hts))
    (fun ts hts => h.expanded ts (sub1 ts hts)) hgb h4
  refine ⟨h2, hk, by omega, G, T, N, r1, r2, ?_, h6, h7⟩
  rw [List.length_map, ← List.map_drop, List.forall₂_map_left_iff] at h5
  exact forall₂_imp_mem h5 fun ts hts t _ ht => importTbr_spec h2 h.prime h.file.small (h.first ts (sub2 ts hts))
    (h.expanded ts (sub2 ts hts)).distinct (h.expanded ts (sub2 ts hts)).deg ht

/-- What is printed for a polynomial given by its terms. -/
def shown (names : List (List Char)) (r : List Text.Mon) : List Char := if r = [] then ['0'] else Text.line names r

theorem poly_degree {n p : ℕ} {ts : List Text.Mon} {d : ℕ} (hd : ∀ t ∈ ts, ∑ i, t.vec n i < d) (h0 : 0 < d) :
    (Text.poly p n ts).totalDegree < d := by
  have key : ∀ l : List Text.Mon, (∀ t ∈ l, ∑ i, t.vec n i < d) → (Text.poly p n l).totalDegree < d := by
    intro l hl
    induction l with
    | nil => simpa [Text.poly] using h0
    | cons t l ih =>
      have h1 := ih fun u hu => hl u (List.mem_cons_of_mem _ hu)
      have h2 : (t.poly p n).totalDegree ≤ ∑ i, t.vec n i := by
        unfold Text.Mon.poly
        refine (MvPolynomial.totalDegree_monomial_le _ _).trans ?_
        rw [Finsupp.sum_fintype _ _ (by simp)]
        exact le_refl _
      have h3 := MvPolynomial.totalDegree_add (t.poly p n) (Text.poly p n l)
      have h4 := hl t List.mem_cons_self
      show (t.poly p n + Text.poly p n l).totalDegree < d
      omega
  exact key ts hd

/-- **C76**: with `-n k` the last `k` polynomials of the file are reduced modulo the ideal generated by the others: after `[` one
polynomial for each of them, in the order of the file, separated by `,` and a newline; `0` for zero, otherwise decreasing terms with
coefficients between one and `p - 1`; it is congruent to the polynomial in the file, and none of its monomials is divisible by a
leading monomial of an element of the ideal.  With `-i` the other polynomials must be a Gröbner basis.  For elimination orders the
degrees of the normal forms are assumed to be below `2^16`; for the degree reverse lexicographical order they always are.

Partial: no coefficient in the file may be a multiple of `p` (part of `InputOk`), in particular none of the polynomials to be
reduced may be zero, see `C76_zero_polynomial`; no monomial may appear twice in a polynomial. -/
theorem C76_normal_forms_partial {f : File} {names : List (List Char)} {p nev k : ℕ} {tss : List (List Text.Mon)}
    (h : InputOk f names p tss) {O : OKind} (hO : O = if nev = 0 then .drl else .be nev) {isGb : Bool}
    (hgb : have : Fact p.Prime := ⟨h.prime⟩
      isGb = true → IsGroebner O.mo (inputIdeal names.length p (tss.take (tss.length - k)))
        { q | ∃ ts ∈ tss.take (tss.length - k), q = Text.poly p names.length ts })
    (hdeg : have : Fact p.Prime := ⟨h.prime⟩
      nev ≠ 0 → ∀ ts ∈ tss.drop (tss.length - k), ∀ r, IsNormalForm O.mo
        (inputIdeal names.length p (tss.take (tss.length - k)) : Set (MvPolynomial (Fin names.length) (ZMod p)))
        (Text.poly p names.length ts) r → r.totalDegree < 65536)
    {out : List Char} (hr : Verif.EndToEndNf.Run isGb nev k f.text out) :
    have : Fact p.Prime := ⟨h.prime⟩
    ∃ rs : List (List Text.Mon),
      out = '[' :: List.intercalate ",\n".toList (rs.map (shown names)) ++ "]:\n".toList ∧
      List.Forall₂ (fun ts r => (∀ t ∈ r, t.Ok names ∧ t.denom = 1 ∧ 0 < t.numer ∧ t.numer < (p : ℤ)) ∧
        r.Pairwise (fun a b => O.lt (b.vec names.length) (a.vec names.length)) ∧
        IsNormalForm O.mo
          (inputIdeal names.length p (tss.take (tss.length - k)) : Set (MvPolynomial (Fin names.length) (ZMod p)))
          (Text.poly p names.length ts) (Text.poly p names.length r)) (tss.drop (tss.length - k)) rs := by
  have hF : Fact p.Prime := ⟨h.prime⟩
  have hO' : O = ordKind nev := hO
  subst hO'
  obtain ⟨hnev, -, -, G, T, N, h1, h2, h3, h4, rfl⟩ := run_parts h hr hgb
  have hin : ∀ t ∈ T, InPoly p t := by
    intro t ht
    obtain ⟨i, hi, rfl⟩ := List.mem_iff_getElem.mp ht
    exact ((List.forall₂_iff_get.mp h3).2 i (by rw [h3.length_eq]; exact hi) hi).1
  have hN := C59_normal_forms (ordKind nev) p h.file.small G h1 _ (fun k hk => List.mem_range.mp hk) T hin N h4
  rw [range_set] at hN
  have hall : List.Forall₂ (fun ts r => (∀ q, r = some q → OutPoly (ordKind nev) p q) ∧
      (∀ t ∈ (r : Option (Poly names.length)).getD [], ∀ i, t.1 i < 65536) ∧ IsNormalForm (ordKind nev).mo
        (inputIdeal names.length p (tss.take (tss.length - k)) : Set (MvPolynomial (Fin names.length) (ZMod p)))
        (Text.poly p names.length ts) (resMv p r)) (tss.drop (tss.length - k)) N := by
    rw [List.forall₂_iff_get] at h3 hN ⊢
    refine ⟨h3.1.trans hN.1, fun i hi hi' => ?_⟩
    have hiT : i < T.length := by rw [hN.1]; exact hi'
    obtain ⟨-, a2⟩ := h3.2 i hi hiT
    obtain ⟨b1, b2⟩ := hN.2 i hiT hi'
    rw [a2] at b2
    have b3 := isNormalForm_ideal h2 b2
    refine ⟨b1, ?_, b3⟩
    have hmem := List.get_mem (tss.drop (tss.length - k)) ⟨i, hi⟩
    generalize N.get ⟨i, hi'⟩ = r at b1 b3 ⊢
    have hd : (resMv p r).totalDegree < 65536 := by
      by_cases h0 : nev = 0
      · subst h0
        exact lt_of_le_of_lt (normalForm_degree b3) (poly_degree (h.expanded _ (List.mem_of_mem_drop hmem)).deg (by norm_num))
      · exact hdeg h0 _ hmem _ b3
    cases r with
    | none => simp
    | some q =>
      intro t ht i
      have hq := b1 q rfl
      simp only [Option.getD_some] at ht
      have hc := toMv_coeff p q hq.sorted t ht
      have hsupp : fs t.1 ∈ (toMv p q).support := by
        rw [MvPolynomial.mem_support_iff, hc]
        intro h0
        rw [ZMod.natCast_eq_zero_iff] at h0
        have := hq.coeff t ht
        exact absurd (Nat.le_of_dvd this.1 h0) (by omega)
      have hle := MvPolynomial.le_totalDegree hsupp
      have hi : t.1 i ≤ (fs t.1).sum fun _ e => e := by
        rw [Finsupp.sum_fintype _ _ (by simp)]
        exact Finset.single_le_sum (f := fun i => fs t.1 i) (fun _ _ => Nat.zero_le _) (Finset.mem_univ i)
      exact lt_of_le_of_lt (hi.trans hle) hd
  refine ⟨N.map fun r => printed names nev (r.getD []), ?_, ?_⟩
  · unfold printNf printPolys
    rw [List.map_map, List.map_map]
    have : N.map (printPoly names (ebl nev) ∘ fun r => stored nev (r.getD [])) =
        N.map (shown names ∘ fun r => printed names nev (r.getD [])) := by
      apply List.map_congr_left
      intro r hr
      obtain ⟨i, hi, rfl⟩ := List.mem_iff_getElem.mp hr
      obtain ⟨b1, b2, -⟩ := (List.forall₂_iff_get.mp hall).2 i (by rw [hall.length_eq]; exact hi) hi
      simp only [List.get_eq_getElem] at b1 b2
      simp only [Function.comp_apply]
      generalize N[i] = r at b1 b2
      cases r with
      | none => rfl
      | some q =>
        have hq := (b1 q rfl).ne
        simp only [Option.getD_some] at b2 ⊢
        unfold shown
        rw [if_neg]
        · refine printPoly_line ?_ ?_
          · intro h0
            unfold stored at h0
            exact hq (List.map_eq_nil_iff.mp h0)
          · intro x hx
            obtain ⟨t, ht, rfl⟩ := List.mem_map.mp hx
            simp only
            rw [exponents_stored hnev _ (b2 t ht)]
            simp
        · rw [printed_eq hnev b2]
          simpa using hq
    rw [this]
    rfl
  · rw [List.forall₂_map_right_iff]
    refine hall.imp ?_
    rintro ts r ⟨b1, b2, b3⟩
    have hc : ∀ t ∈ r.getD [], 0 < t.2 ∧ t.2 < p := by
      cases r with
      | none => simp
      | some q => exact (b1 q rfl).coeff
    have hs : ((r.getD []).map Prod.fst).Pairwise fun a b => (ordKind nev).lt b a := by
      cases r with
      | none => simp
      | some q => exact (b1 q rfl).sorted
    have hm : resMv p r = toMv p (r.getD []) := by
      cases r with
      | none => simp [resMv, toMv]
      | some q => rfl
    rw [printed_poly hnev b2, ← hm]
    refine ⟨?_, ?_, b3⟩
    · rw [printed_eq hnev b2]
      intro t' ht'
      obtain ⟨t, ht, rfl⟩ := List.mem_map.mp ht'
      refine ⟨printMon_ok ?_, rfl, ?_, ?_⟩
      · intro x hx
        obtain ⟨i, hi, rfl⟩ := List.mem_map.mp hx
        have hi := List.mem_range.mp hi
        rw [show i = (⟨i, hi⟩ : Fin names.length).val from rfl, ext_val]
        have := b2 t ht ⟨i, hi⟩
        omega
      · rw [printMon_numer]
        have := hc t ht
        omega
      · rw [printMon_numer]
        have := hc t ht
        omega
    · rw [printed_eq hnev b2, List.pairwise_map]
      simp only [printMon_vec]
      rw [List.pairwise_map] at hs
      exact hs

theorem print_zero {names : List (List Char)} {l : ℕ} {q : List (ℕ × List ℕ)} (h : ∀ t ∈ q, 0 < t.1) :
    printPoly names l q = ['0'] ↔ q = [] := by
  constructor
  · intro h0
    cases q with
    | nil => rfl
    | cons t q =>
      exfalso
      obtain ⟨c, e⟩ := t
      have hc := h (c, e) List.mem_cons_self
      simp only [printPoly, printTerm, List.append_assoc] at h0
      obtain ⟨⟨hd, -⟩, hdec⟩ := toDigits_digits c
      obtain ⟨x, l, hx⟩ := List.exists_cons_of_ne_nil hd
      rw [hx, List.cons_append] at h0
      injection h0 with h1 h2
      rw [hx, h1, (List.append_eq_nil_iff.mp h2).1] at hdec
      have : Text.dec ['0'] = 0 := by decide
      omega
  · rintro rfl
    rfl

/-- **C76**: `0` is printed for a polynomial exactly if it is in the ideal; for this the degrees do not matter.  Partial for the same
reason. -/
theorem C76_membership_partial {f : File} {names : List (List Char)} {p nev k : ℕ} {tss : List (List Text.Mon)}
    (h : InputOk f names p tss) {isGb : Bool}
    (hgb : have : Fact p.Prime := ⟨h.prime⟩
      isGb = true → IsGroebner (if nev = 0 then OKind.drl else OKind.be nev).mo
        (inputIdeal names.length p (tss.take (tss.length - k)))
        { q | ∃ ts ∈ tss.take (tss.length - k), q = Text.poly p names.length ts })
    {out : List Char} (hr : Verif.EndToEndNf.Run isGb nev k f.text out) :
    ∃ ls : List (List Char), out = '[' :: List.intercalate ",\n".toList ls ++ "]:\n".toList ∧
      List.Forall₂ (fun ts l => l = ['0'] ↔ Text.poly p names.length ts ∈ inputIdeal names.length p (tss.take (tss.length - k)))
        (tss.drop (tss.length - k)) ls := by
  have hF : Fact p.Prime := ⟨h.prime⟩
  obtain ⟨hnev, -, -, G, T, N, h1, h2, h3, h4, rfl⟩ := run_parts h hr hgb
  have hin : ∀ t ∈ T, InPoly p t := by
    intro t ht
    obtain ⟨i, hi, rfl⟩ := List.mem_iff_getElem.mp ht
    exact ((List.forall₂_iff_get.mp h3).2 i (by rw [h3.length_eq]; exact hi) hi).1
  have hlm : ∀ k ∈ List.range G.length, k < G.length := fun k hk => List.mem_range.mp hk
  have hN := C59_normal_forms (ordKind nev) p h.file.small G h1 _ hlm T hin N h4
  have hM := C59_membership (ordKind nev) p h.file.small _ G h1 _ hlm (by rw [range_set]; exact h2) T hin N h4
  refine ⟨N.map fun r => printPoly names (ebl nev) (stored nev (r.getD [])), ?_, ?_⟩
  · unfold printNf printPolys
    rw [List.map_map]
    rfl
  · rw [List.forall₂_map_right_iff]
    rw [List.forall₂_iff_get] at h3 hN hM ⊢
    refine ⟨h3.1.trans hN.1, fun i hi hi' => ?_⟩
    have hiT : i < T.length := by rw [hN.1]; exact hi'
    obtain ⟨-, a2⟩ := h3.2 i hi hiT
    obtain ⟨b1, -⟩ := hN.2 i hiT hi'
    have b2 := hM.2 i hiT hi'
    rw [a2] at b2
    rw [← b2]
    generalize N.get ⟨i, hi'⟩ = r at b1
    cases r with
    | none => exact ⟨fun _ => rfl, fun _ => rfl⟩
    | some q =>
      have hq := b1 q rfl
      rw [Option.getD_some, print_zero]
      · constructor
        · intro h0
          exact absurd (List.map_eq_nil_iff.mp h0) hq.ne
        · intro h0
          cases h0
      · intro t ht
        obtain ⟨t', ht', rfl⟩ := List.mem_map.mp ht
        exact (hq.coeff t' ht').1

/-- **C76**: files whose first polynomials generate the same ideal and whose last polynomials are congruent give the same output, with
or without `-i`.  In particular the output for one file is unique. -/
theorem C76_same_classes {f f' : File} {names : List (List Char)} {p nev k : ℕ} {tss tss' : List (List Text.Mon)}
    (h : InputOk f names p tss) (h' : InputOk f' names p tss') {isGb isGb' : Bool}
    (hgb : have : Fact p.Prime := ⟨h.prime⟩
      isGb = true → IsGroebner (if nev = 0 then OKind.drl else OKind.be nev).mo
        (inputIdeal names.length p (tss.take (tss.length - k)))
        { q | ∃ ts ∈ tss.take (tss.length - k), q = Text.poly p names.length ts })
    (hgb' : have : Fact p.Prime := ⟨h.prime⟩
      isGb' = true → IsGroebner (if nev = 0 then OKind.drl else OKind.be nev).mo
        (inputIdeal names.length p (tss'.take (tss'.length - k)))
        { q | ∃ ts ∈ tss'.take (tss'.length - k), q = Text.poly p names.length ts })
    (hI : inputIdeal names.length p (tss.take (tss.length - k)) = inputIdeal names.length p (tss'.take (tss'.length - k)))
    (hT : List.Forall₂ (fun ts ts' => Text.poly p names.length ts - Text.poly p names.length ts' ∈
      inputIdeal names.length p (tss.take (tss.length - k))) (tss.drop (tss.length - k)) (tss'.drop (tss'.length - k)))
    {out out' : List Char} (hr : Verif.EndToEndNf.Run isGb nev k f.text out) (hr' : Verif.EndToEndNf.Run isGb' nev k f'.text out') :
    out = out' := by
  have hF : Fact p.Prime := ⟨h.prime⟩
  obtain ⟨hnev, -, -, G, T, N, h1, h2, h3, h4, rfl⟩ := run_parts h hr hgb
  obtain ⟨-, -, -, G', T', N', h1', h2', h3', h4', rfl⟩ := run_parts h' hr' hgb'
  rw [← hI] at h2'
  have ok : ∀ {l : List (List Text.Mon)} {T : List (Poly names.length)},
      List.Forall₂ (fun ts t => InPoly p t ∧ toMv p t = Text.poly p names.length ts) l T → ∀ t ∈ T, InPoly p t := by
    intro l T hl t ht
    obtain ⟨i, hi, rfl⟩ := List.mem_iff_getElem.mp ht
    exact ((List.forall₂_iff_get.mp hl).2 i (by rw [hl.length_eq]; exact hi) hi).1
  have hlm : ∀ G : List (Poly names.length), ∀ k ∈ List.range G.length, k < G.length := fun G k hk => List.mem_range.mp hk
  have hN := C59_normal_forms (ordKind nev) p h.file.small G h1 _ (hlm G) T (ok h3) N h4
  have hN' := C59_normal_forms (ordKind nev) p h.file.small G' h1' _ (hlm G') T' (ok h3') N' h4'
  have e : N = N' := by
    have l1 := h3.length_eq
    have l2 := h3'.length_eq
    have l3 := hT.length_eq
    have l4 := hN.length_eq
    have l5 := hN'.length_eq
    refine List.ext_getElem (by omega) fun i hi hi' => ?_
    have hiT : i < T.length := by omega
    have hiT' : i < T'.length := by omega
    obtain ⟨r, r', hr, hr', hiff⟩ := C59_unique (ordKind nev) p h.file.small _ G G' h1 h1' _ _ (hlm G) (hlm G')
      (by rw [range_set]; exact h2) (by rw [range_set]; exact h2') T T' (ok h3) (ok h3') N N' h4 h4' i i T[i] T'[i]
      (List.getElem?_eq_getElem hiT) (List.getElem?_eq_getElem hiT')
    rw [List.getElem?_eq_getElem hi] at hr
    rw [List.getElem?_eq_getElem hi'] at hr'
    rw [Option.some.inj hr, Option.some.inj hr', hiff]
    have a := ((List.forall₂_iff_get.mp h3).2 i (by omega) hiT).2
    have a' := ((List.forall₂_iff_get.mp h3').2 i (by omega) hiT').2
    simp only [List.get_eq_getElem] at a a'
    rw [a, a']
    exact (List.forall₂_iff_get.mp hT).2 i (by omega) (by omega)
  rw [e]

theorem forall₂_exists {α β : Type} {R : α → β → Prop} : ∀ l : List α, (∀ a ∈ l, ∃ b, R a b) → ∃ m, List.Forall₂ R l m
  | [], _ => ⟨[], .nil⟩
  | a :: l, h => by
    obtain ⟨b, hb⟩ := h a List.mem_cons_self
    obtain ⟨m, hm⟩ := forall₂_exists l fun x hx => h x (List.mem_cons_of_mem _ hx)
    exact ⟨b :: m, .cons hb hm⟩

theorem reducers_exist {n nev p : ℕ} (hnev : nev < n) (hp : p.Prime) (hp2 : p < 2 ^ 31) {tss : List (List Text.Mon)} (h : tss ≠ [])
    (hne : ∀ ts ∈ tss, ts ≠ []) (h0 : ∀ ts ∈ tss, ∀ t ∈ ts.head?, FirstNum t) (hE : ∀ ts ∈ tss, Expanded p n ts) (isGb : Bool) :
    ∃ G, Reducers isGb n nev p (tss.map (ffPoly n p)) G ∧ ∀ g ∈ G, PolyOk (ordKind nev) p g := by
  have hF : Fact p.Prime := ⟨hp⟩
  cases isGb with
  | true =>
    obtain ⟨F0, hF0⟩ := forall₂_exists (R := fun ts g => ImportOnce n nev p (ffPoly n p ts) g) tss fun ts hts =>
      importOnce_exists hnev hp hp2 (hne ts hts) (h0 ts hts) (hE ts hts)
    refine ⟨F0, ⟨F0, List.forall₂_map_left_iff.mpr hF0, .refl _⟩, ?_⟩
    refine (import_ideal hnev hp hp2 hne h0 hE ?_).1
    rw [List.forall₂_map_left_iff]
    exact forall₂_imp_mem hF0 fun ts hts g _ hg => importOnce_poly hp hp2 (hne ts hts) (h0 ts hts) (hE ts hts) hg
  | false =>
    obtain ⟨F0, hF0⟩ := forall₂_exists (R := fun ts g => ImportPoly n nev p (ffPoly n p ts) g) tss fun ts hts =>
      importPoly_exists hnev hp hp2 (hne ts hts) (h0 ts hts) (hE ts hts)
    rw [← List.forall₂_map_left_iff (f := ffPoly n p)] at hF0
    obtain ⟨k1, -⟩ := import_ideal hnev hp hp2 hne h0 hE hF0
    have hC := stdCfg_ok (n := n) (ordKind nev) hp hp2 Nat.one_pos
    obtain ⟨s, G, h1, h2, h3⟩ := (C44_reduced hC k1).1 (by
      rintro rfl
      have := hF0.length_eq
      rw [List.length_map, List.length_nil] at this
      exact h (List.length_eq_zero_iff.mp this))
    exact ⟨G, ⟨F0, F0, _, s, hF0, .refl _, rfl, rfl, ⟨hC.mnsel, hC.upd, hC.sel, hC.sorted⟩, h1, h2, h3⟩,
      ((C44_reduced hC k1).2 s G h1 h2 h3).2.1⟩

/-- **C76**: something is printed, if there are more than `k` polynomials. -/
theorem C76_exists {f : File} {names : List (List Char)} {p nev k : ℕ} {tss : List (List Text.Mon)} (h : InputOk f names p tss)
    (hnev : nev < names.length) (hk : 0 < k) (hlen : k < tss.length) (isGb : Bool) :
    ∃ out, Verif.EndToEndNf.Run isGb nev k f.text out := by
  have sub1 : ∀ ts ∈ tss.take (tss.length - k), ts ∈ tss := fun ts hts => List.mem_of_mem_take hts
  have sub2 : ∀ ts ∈ tss.drop (tss.length - k), ts ∈ tss := fun ts hts => List.mem_of_mem_drop hts
  obtain ⟨G, hG, hok⟩ := reducers_exist hnev h.prime h.file.small (tss := tss.take (tss.length - k))
    (by
      intro h0
      have := congrArg List.length h0
      rw [List.length_take, List.length_nil] at this
      omega)
    (fun ts hts => h.file.terms ts (sub1 ts hts)) (fun ts hts => h.first ts (sub1 ts hts)) (fun ts hts => h.expanded ts (sub1 ts hts)) isGb
  obtain ⟨T, hT⟩ := forall₂_exists (R := fun ts g => ImportTbr names.length nev p (ffPoly names.length p ts) g)
    (tss.drop (tss.length - k)) fun ts hts =>
      importTbr_exists hnev h.prime h.file.small (h.file.terms ts (sub2 ts hts)) (h.first ts (sub2 ts hts)) (h.expanded ts (sub2 ts hts))
  have hin : ∀ t ∈ T, InPoly p t := by
    intro t ht
    obtain ⟨i, hi, rfl⟩ := List.mem_iff_getElem.mp ht
    have hi' : i < (tss.drop (tss.length - k)).length := by rw [hT.length_eq]; exact hi
    have hm := sub2 _ (List.getElem_mem hi')
    exact (importTbr_spec hnev h.prime h.file.small (h.first _ hm) (h.expanded _ hm).distinct (h.expanded _ hm).deg
      ((List.forall₂_iff_get.mp hT).2 i hi' hi)).1
  obtain ⟨N, hN⟩ := (C59_terminates (ordKind nev) p h.prime h.file.small G hok (List.range G.length)
    (fun k hk => List.mem_range.mp hk) T hin).2.1
  refine ⟨_, names, p, _, _, ((tss.length - k : ℕ) : ℤ), G, T, N, read_file h, hk, hnev, ?_, hG, ?_, hN, rfl⟩
  · rw [import_first h.expanded, if_neg (by omega)]
  · rw [List.length_map, ← List.map_drop, List.forall₂_map_left_iff]
    exact hT

/-! ### A zero polynomial -/

/-- `x`, the only generator that is imported. -/
def zGen : List (List Text.Mon) := [[⟨false, none, [⟨0, none⟩]⟩]]
/-- `y` and `0`, to be reduced. -/
def zTbr : List (List Text.Mon) := [[⟨false, none, [⟨1, none⟩]⟩], [⟨false, some ⟨['0'], none⟩, []⟩]]

theorem zGen_terms : ∀ ts ∈ zGen, ts ≠ [] := by decide
theorem zGen_first : ∀ ts ∈ zGen, ∀ t ∈ ts.head?, FirstNum t := by
  have h : ∀ ts ∈ zGen, ∀ t ∈ ts.head?, ∀ a ∈ t.num, a.d = none ∧ Text.dec a.n < 2 ^ 31 ∧ (t.neg = true → Text.dec a.n ≠ 0) := by
    decide +kernel
  exact h
theorem zGen_expanded : ∀ ts ∈ zGen, Expanded 101 2 ts := by
  have h : ∀ ts ∈ zGen, (∀ t ∈ ts, ¬ ((101 : ℕ) : ℤ) ∣ t.numer) ∧ (ts.map (Text.Mon.vec 2)).Nodup ∧
      ∀ t ∈ ts, ∑ i, t.vec 2 i < 65536 := by decide +kernel
  exact fun ts hts => ⟨(h ts hts).1, (h ts hts).2.1, (h ts hts).2.2⟩

theorem zTbr_first : ∀ ts ∈ zTbr, ∀ t ∈ ts.head?, FirstNum t := by
  have h : ∀ ts ∈ zTbr, ∀ t ∈ ts.head?, ∀ a ∈ t.num, a.d = none ∧ Text.dec a.n < 2 ^ 31 ∧ (t.neg = true → Text.dec a.n ≠ 0) := by
    decide +kernel
  exact h
theorem zTbr_distinct : ∀ ts ∈ zTbr, (ts.map (Text.Mon.vec 2)).Nodup ∧ ∀ t ∈ ts, ∑ i, t.vec 2 i < 65536 := by decide +kernel

theorem zTbr_import (t : Text.Mon) : ∃ g, ImportTbr 2 0 101 (ffPoly 2 101 [t]) g := by
  obtain ⟨cf, hcf, -⟩ := sortTerms_spec 1
    (fun i => ((ffPoly 2 101 [t]).map (importTerm 2 0 101)).getD i (0, fun _ => 0)) id (fun _ h => h) fun _ _ _ _ h => h
  refine ⟨_, id, cf, ⟨fun _ h => h, fun _ _ _ _ h => h, ?_⟩, hcf, rfl⟩
  intro i j hij hj
  simp only [ffPoly, List.map_cons, List.map_nil, List.length_cons, List.length_nil] at hj
  omega

theorem z_mon {t : Text.Mon} {u : Fin 2 → ℕ} {c : ℕ} (h : t.vec 2 = u) (hc : ((t.numer : ℤ) : ZMod 101) = ((c : ℕ) : ZMod 101)) :
    t.poly 101 2 = MvPolynomial.monomial (fs u) ((c : ℕ) : ZMod 101) := by
  subst h
  unfold Text.Mon.poly
  rw [hc]; rfl

theorem z_x : fs (![1, 0] : Fin 2 → ℕ) = Finsupp.single 0 1 := by
  ext i
  fin_cases i <;> simp [fs]

theorem z_y : fs (![0, 1] : Fin 2 → ℕ) = Finsupp.single 1 1 := by
  ext i
  fin_cases i <;> simp [fs]

theorem z_file : readFile "x,y\n101\nx,\ny,\ny,\n0\n".toList =
    some ⟨twoNames, 101, .ff ((zGen ++ zTbr.take 1 ++ zTbr).map (ffPoly 2 101))⟩ := by decide +kernel

theorem z_import : importGens (fun f => invalid (f.map Prod.fst)) 2 ((zGen ++ zTbr.take 1 ++ zTbr).map (ffPoly 2 101)) =
    .ok (zGen.map (ffPoly 2 101)) 1 := by decide +kernel

theorem z_ideal : inputIdeal 2 101 zGen = Ideal.span {MvPolynomial.X 0} := by
  unfold inputIdeal
  congr 1
  ext q
  simp only [zGen, List.mem_singleton, Set.mem_ofPred_eq, Set.mem_singleton_iff, exists_eq_left]
  have e : Text.poly 101 2 [⟨false, none, [⟨0, none⟩]⟩] = (MvPolynomial.X 0 : MvPolynomial (Fin 2) (ZMod 101)) := by
    simp only [Text.poly, List.map_cons, List.map_nil, List.sum_cons, List.sum_nil, add_zero]
    rw [z_mon (u := ![1, 0]) (c := 1) (by decide +kernel) (by decide +kernel), z_x]
    unfold MvPolynomial.X
    rw [Nat.cast_one]
  rw [e]

/-- The terms of `y`. -/
def zY : Poly 2 := [(![0, 1], 1)]

theorem zY_eq : toMv 101 zY = (MvPolynomial.X 1 : MvPolynomial (Fin 2) (ZMod 101)) := by
  simp only [zY, toMv, List.map_cons, List.map_nil, List.sum_cons, List.sum_nil, add_zero]
  unfold MvPolynomial.X
  rw [Nat.cast_one, z_y]

theorem z_tbr {T : List (Poly 2)} (hT : List.Forall₂ (ImportTbr 2 0 101) (zTbr.map (ffPoly 2 101)) T) :
    List.Forall₂ (fun ts t => InPoly 101 t ∧ toMv 101 t = Text.poly 101 2 ts) zTbr T := by
  rw [List.forall₂_map_left_iff] at hT
  exact forall₂_imp_mem hT fun ts hts t _ ht =>
    importTbr_spec (by norm_num) (by norm_num) (by norm_num) (zTbr_first ts hts) (zTbr_distinct ts hts).1 (zTbr_distinct ts hts).2 ht

theorem z_in {l : List (List Text.Mon)} {T : List (Poly 2)}
    (hl : List.Forall₂ (fun ts t => InPoly 101 t ∧ toMv 101 t = Text.poly 101 2 ts) l T) : ∀ t ∈ T, InPoly 101 t := by
  intro t ht
  obtain ⟨i, hi, rfl⟩ := List.mem_iff_getElem.mp ht
  exact ((List.forall₂_iff_get.mp hl).2 i (by rw [hl.length_eq]; exact hi) hi).1

theorem z_result {G T : List (Poly 2)} {N : List (Option (Poly 2))} (h4 : Reducers false 2 0 101 (zGen.map (ffPoly 2 101)) G)
    (h5 : List.Forall₂ (ImportTbr 2 0 101) (zTbr.map (ffPoly 2 101)) T) (h6 : NfRun (ordKind 0) 101 G (List.range G.length) T N) :
    N = [some zY, none] := by
  have hp : Nat.Prime 101 := by norm_num
  have hF : Fact (Nat.Prime 101) := ⟨hp⟩
  have h5' := z_tbr h5
  obtain ⟨r1, r2⟩ := reducers_spec (n := 2) (nev := 0) (by norm_num) (by norm_num) zGen_terms zGen_first zGen_expanded (by simp) h4
  have hN := C59_normal_forms (n := 2) (ordKind 0) 101 (by norm_num) G r1 _ (fun k hk => List.mem_range.mp hk) T (z_in h5') N h6
  rw [range_set] at hN
  cases h5' with
  | cons a1 h5' =>
  cases h5' with
  | cons a2 h5' =>
  cases h5'
  cases hN with
  | cons b1 hN =>
  cases hN with
  | cons b2 hN =>
  cases hN
  rename_i t1 t2 n1 n2
  have red : ∀ {f r : MvPolynomial (Fin 2) (ZMod 101)},
      IsNormalForm (ordKind 0).mo { g | ∃ f ∈ G, g = toMv 101 f } f r → f - r ∈ inputIdeal 2 101 zGen :=
    fun h => (Ideal.span_le.mpr r2.1) h.1
  have hy : Text.poly 101 2 [⟨false, none, [⟨1, none⟩]⟩] = toMv 101 zY := by
    simp only [Text.poly, zY, toMv, List.map_cons, List.map_nil, List.sum_cons, List.sum_nil, add_zero]
    rw [z_mon (u := ![0, 1]) (c := 1) (by decide +kernel) (by decide +kernel)]
  have hz : Text.poly 101 2 [⟨false, some ⟨['0'], none⟩, []⟩] = 0 := by
    simp only [Text.poly, List.map_cons, List.map_nil, List.sum_cons, List.sum_nil, add_zero]
    rw [z_mon (u := ![0, 0]) (c := 0) (by decide +kernel) (by decide +kernel), Nat.cast_zero, MvPolynomial.monomial_zero]
  have hYout : OutPoly (ordKind 0) 101 zY := ⟨by simp [zY], by simp [zY], by decide⟩
  have hYred : ∀ u ∈ (toMv 101 zY).support, ∀ g ∈ { g | ∃ f ∈ G, g = toMv 101 f }, g ≠ 0 → ¬ (ordKind 0).mo.degree g ≤ u := by
    intro u hu g hg hg0 hle
    rw [zY_eq, MvPolynomial.support_X, Finset.mem_singleton] at hu
    have hgI := r2.1 g hg
    rw [z_ideal, Ideal.mem_span_singleton] at hgI
    obtain ⟨q, rfl⟩ := hgI
    have hq : q ≠ 0 := right_ne_zero_of_mul hg0
    rw [(ordKind 0).mo.degree_mul (MvPolynomial.X_ne_zero 0) hq, hu] at hle
    have h0 := hle 0
    rw [Finsupp.add_apply, (ordKind 0).mo.degree_X] at h0
    simp at h0
  have e1 : n1 = some zY := by
    refine res_unique b1.1 (fun q hq => Option.some.inj hq ▸ hYout) (normalForm_unique r2 b1.2.2 hYred ?_)
    have := red b1.2
    rw [a1.2, hy] at this
    have := (inputIdeal 2 101 zGen).neg_mem this
    rwa [neg_sub] at this
  have e2 : n2 = none := by
    refine res_unique (r' := none) b2.1 (by simp) (normalForm_unique r2 b2.2.2 (by simp [resMv]) ?_)
    have := red b2.2
    rw [a2.2, hz] at this
    have := (inputIdeal 2 101 zGen).neg_mem this
    rw [neg_sub] at this
    simpa [resMv] using this
  rw [e1, e2]

/-- C76: a zero polynomial among those to be reduced is counted as an invalid generator, and a valid generator is dropped instead.  For
the file with `x`, `y`, `y`, `0` and `-n 2` the ideal is generated by `x` and `y`, the normal form of `y` is zero; `y` is printed. -/
theorem C76_zero_polynomial : (∃ out, Verif.EndToEndNf.Run false 0 2 "x,y\n101\nx,\ny,\ny,\n0\n".toList out) ∧
    (∀ out, Verif.EndToEndNf.Run false 0 2 "x,y\n101\nx,\ny,\ny,\n0\n".toList out → out = "[1*y^1,\n0]:\n".toList) ∧
    (MvPolynomial.X 1 : MvPolynomial (Fin 2) (ZMod 101)) ∈
      Ideal.span {(MvPolynomial.X 0 : MvPolynomial (Fin 2) (ZMod 101)), MvPolynomial.X 1} := by
  have hp : Nat.Prime 101 := by norm_num
  have hF : Fact (Nat.Prime 101) := ⟨hp⟩
  have hdrop : ((zGen ++ zTbr.take 1 ++ zTbr).map (ffPoly 2 101)).drop (((zGen ++ zTbr.take 1 ++ zTbr).map (ffPoly 2 101)).length - 2) =
      zTbr.map (ffPoly 2 101) := by decide +kernel
  refine ⟨?_, ?_, Ideal.subset_span (by simp)⟩
  · obtain ⟨G, hG, hok⟩ := reducers_exist (n := 2) (nev := 0) (by norm_num) hp (by norm_num) (tss := zGen) (by decide) zGen_terms zGen_first
      zGen_expanded false
    obtain ⟨T, hT⟩ := forall₂_exists (R := fun ts g => ImportTbr 2 0 101 (ffPoly 2 101 ts) g) zTbr fun ts hts => by
      simp only [zTbr, List.mem_cons, List.not_mem_nil, or_false] at hts
      rcases hts with rfl | rfl <;> exact zTbr_import _
    have hT := List.forall₂_map_left_iff.mpr hT
    obtain ⟨N, hN⟩ := (C59_terminates (ordKind 0) 101 hp (by norm_num) G hok (List.range G.length)
      (fun k hk => List.mem_range.mp hk) T (z_in (z_tbr hT))).2.1
    exact ⟨_, twoNames, 101, _, _, 1, G, T, N, z_file, by norm_num, by decide, z_import, hG, by rw [hdrop]; exact hT, hN, rfl⟩
  · rintro out ⟨names, p, ps, im, ng, G, T, N, h1, -, h2, h3, h4, h5, h6, rfl⟩
    rw [z_file] at h1
    have h1 := Option.some.inj h1
    injection h1 with e1 e2 e3
    have e2 : 101 = p := by exact_mod_cast e2
    subst e1
    subst e2
    injection e3 with e3
    subst e3
    have h3' := z_import.symm.trans h3
    injection h3' with e4 e5
    subst e4
    rw [hdrop] at h5
    rw [show N = [some zY, none] from z_result h4 h5 h6]
    decide +kernel

/-! ### An example -/

/-- `x^2+3*y`, `y^2-5` and `x^3+y`. -/
def nfTerms : List (List Text.Mon) := eeTerms ++ [[⟨false, none, [⟨0, some ['3']⟩]⟩, ⟨false, none, [⟨1, none⟩]⟩]]
def nfFile : File := ⟨twoNames, ['1', '0', '1'], ["x^2 + 3*y".toList, "y^2-5".toList, "x^3+y".toList], ['\n']⟩

example : nfFile.text = "x,y\n101\nx^2 + 3*y,\ny^2-5,\nx^3+y\n".toList := by decide +kernel

theorem nfFile_ok : InputOk nfFile twoNames 101 nfTerms where
  file := by
    refine ⟨eeFile_ok.file.name, by decide, by decide, eeFile_ok.file.padded, by decide, eeFile_ok.file.char, by decide, by decide, ?_,
      by decide, by decide, ?_, by unfold Text.Fits; decide +kernel⟩
    · exact .cons ⟨by decide +kernel, by decide +kernel, by decide +kernel⟩ (.cons ⟨by decide +kernel, by decide +kernel, by decide +kernel⟩
        (.cons ⟨by decide +kernel, by decide +kernel, by decide +kernel⟩ .nil))
    · have h : ∀ ts ∈ nfTerms, ∀ t ∈ ts, (t.num ≠ none ∨ t.fs ≠ []) ∧
          (∀ a ∈ t.num, (a.n ≠ [] ∧ ∀ c ∈ a.n, c.isDigit = true) ∧ a.d = none) ∧ (∀ f ∈ t.fs, f.v < twoNames.length) ∧
          (∀ f ∈ t.fs, ∀ ds ∈ f.e, (ds ≠ [] ∧ ∀ c ∈ ds, c.isDigit = true) ∧ Text.dec ds < 2 ^ 31) ∧ (t.fs.map (·.v)).Nodup := by
        decide +kernel
      intro ts hts t ht
      obtain ⟨h1, h2, h3, h4, h5⟩ := h ts hts t ht
      exact ⟨h1, fun a ha => ⟨(h2 a ha).1, fun d hd => absurd hd (by rw [(h2 a ha).2]; simp)⟩, h3, h4, h5⟩
  prime := by norm_num
  first := by
    have h : ∀ ts ∈ nfTerms, ∀ t ∈ ts.head?, ∀ a ∈ t.num, a.d = none ∧ Text.dec a.n < 2 ^ 31 ∧ (t.neg = true → Text.dec a.n ≠ 0) := by
      decide +kernel
    exact h
  inner := by
    have h : ∀ ts ∈ nfTerms, ∀ t ∈ ts.tail, ∀ a ∈ t.num, a.d = none ∧ Text.dec a.n < 2 ^ 63 - 1 ∧ Text.dec a.n ≠ 0 := by
      decide +kernel
    exact h
  expanded := by
    have h : ∀ ts ∈ nfTerms, (∀ t ∈ ts, ¬ ((101 : ℕ) : ℤ) ∣ t.numer) ∧ (ts.map (Text.Mon.vec 2)).Nodup ∧
        ∀ t ∈ ts, ∑ i, t.vec 2 i < 65536 := by decide +kernel
    exact fun ts hts => ⟨(h ts hts).1, (h ts hts).2.1, (h ts hts).2.2⟩

/-- The first two polynomials are a Gröbner basis: the hypothesis for `-i`. -/
theorem nfFile_gb : have : Fact (Nat.Prime 101) := ⟨nfFile_ok.prime⟩
    IsGroebner (if (0 : ℕ) = 0 then OKind.drl else OKind.be 0).mo (inputIdeal 2 101 (nfTerms.take (nfTerms.length - 1)))
      { q | ∃ ts ∈ nfTerms.take (nfTerms.length - 1), q = Text.poly 101 2 ts } := by
  intro hF
  have e : nfTerms.take (nfTerms.length - 1) = eeTerms := by decide +kernel
  rw [e, eeBasis_poly, if_pos rfl]
  exact eeBasis_reduced.1

example : ∃ out, Verif.EndToEndNf.Run true 0 1 nfFile.text out := C76_exists nfFile_ok (by decide) (by decide) (by decide) _
example : ∃ out, Verif.EndToEndNf.Run false 1 2 nfFile.text out := C76_exists nfFile_ok (by decide) (by decide) (by decide) _
/-- `-i` makes no difference. -/
example {out out' : List Char} (h : Verif.EndToEndNf.Run true 0 1 nfFile.text out) (h' : Verif.EndToEndNf.Run false 0 1 nfFile.text out') :
    out = out' :=
  C76_same_classes nfFile_ok nfFile_ok (fun _ => nfFile_gb) (by simp) rfl
    (List.forall₂_same.mpr fun ts _ => by rw [sub_self]; exact Ideal.zero_mem _) h h'

end EndToEndNf
end Verif.Props
