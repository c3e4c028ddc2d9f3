import Verif.Program
import Verif.Spec.Request
import Verif.Props.Options
import Verif.Props.EndToEndLm
import Verif.Props.EndToEndNf
import Verif.Props.EndToEndQq
import Verif.Props.SolveExists

/-!
C89: the whole program.
-/
namespace Verif.Props

open Verif.Options Verif.Parse Verif.Spec Verif.Spec.CommandLine Verif.Program
open Verif.Spec.Text (File)
open Verif.F4 (OKind)
open Verif.Props.EndToEnd (InputOk inputIdeal read_file Comments comment C73_exists C73_groebner C73_same_ideal)
open Verif.Props.EndToEndQq (InputOkQ read_fileQ)

namespace Program

theorem follows_value {os : List Occ} {c : Char} {dflt v x : ℤ} {f : ℤ → ℤ} (h : Follows os c dflt f x) (hv : HasValue os c dflt v) (hd : f dflt = dflt) : x = f v := by
  rcases hv with ⟨h1, rfl⟩ | ⟨a, h1, h2⟩
  · rw [h.1 h1, hd]
  · exact h.2 a v h1 h2

/-- The settings of a request. -/
theorem settings {os : List Occ} {argv : List (List Char)} (hw : Writes os argv) {fin : List Char} {fout : Option (List Char)} (hr : Request os fin fout)
    {e : ℕ} (he : HasValue os 'e' 0 e) {g t : ℤ} (hg : HasValue os 'g' 0 g) (ht : HasValue os 't' 1 t) :
    ∃ o, getoptions argv = .run o ∧ o.inFile = some fin ∧ o.outFile = fout ∧ o.saturate = 0 ∧ o.colon = 0 ∧ o.signatures = 0 ∧ o.la = 2 ∧
      o.truncate = 0 ∧ o.liftMatrix = 0 ∧ o.updateHt = 0 ∧ o.info = 0 ∧ o.elim = e ∧ o.printGb = max 0 (min 2 g) ∧ o.threads = t ∧
      (∀ v, HasValue os 'c' 2 v → o.genericity = max 0 (min 2 v)) ∧ (∀ v, HasValue os 'd' 2 v → o.staircase = max 0 (min 4 v)) ∧
      (∀ v, HasValue os 'P' 0 v → o.param = max 0 v) ∧ (∀ v, HasValue os 'p' 128 v → o.precision = if 0 ≤ v then v else 128) ∧
      (∀ v, HasValue os 'n' 0 v → o.normalForm = max 0 v) ∧ (∀ v, HasValue os 'M' 0 v → o.nfMatrix = max 0 v) ∧ (o.isGb = 1 ↔ Occ.flag 'i' ∈ os) := by
  obtain ⟨o, h, hf, -, ho, -, hI, hS, hC, kt, kv, kl, -, -, ku, -, kL, kN, kg, kc, kd, ke, kn, kM, kP, kp, kq⟩ :=
    C88_settings hw hr.help hr.version hr.right (.inl (by rw [hr.file]; simp))
  have pl : ∀ c, c ∈ "qlNLuv".toList → lastVal c os = none := hr.plain
  refine ⟨o, h, by rw [hf, hr.file], by rw [ho, hr.out], ?_, ?_, kq.1 (pl _ (by decide)), kl.1 (pl _ (by decide)), kN.1 (pl _ (by decide)),
    kL.1 (pl _ (by decide)), ku.1 (pl _ (by decide)), kv.1 (pl _ (by decide)), ?_, ?_, ?_,
    ?_, ?_, ?_, ?_, ?_, ?_, ?_⟩
  · rw [hS, if_neg hr.saturate]
  · rw [hC, if_neg hr.colon]
  · rw [follows_value ke he rfl]
    exact max_eq_right (Int.natCast_nonneg e)
  · have := follows_value kg hg rfl
    exact this
  · have := follows_value kt ht rfl
    exact this
  · intro v hv
    have := follows_value kc hv rfl
    exact this
  · intro v hv
    have := follows_value kd hv rfl
    exact this
  · intro v hv
    have := follows_value kP hv rfl
    exact this
  · intro v hv
    have := follows_value kp hv rfl
    exact this
  · intro v hv
    have := follows_value kn hv rfl
    exact this
  · intro v hv
    have := follows_value kM hv rfl
    exact this
  · rw [hI]
    split_ifs with h1 <;> simp [h1]

theorem path_basis {o : Opts} {fc : ℤ} {e : ℕ} {g : ℤ} (h1 : o.saturate = 0) (h2 : o.colon = 0) (h3 : o.normalForm = 0 ∨ fc ≤ 0) (h4 : o.signatures = 0) (h5 : o.elim = e)
    (h6 : o.printGb = max 0 (min 2 g)) : pathOf o fc = if 2 ≤ g ∨ g ≤ 0 ∧ 0 < e then .basis else if g = 1 then .leads else .solve := by
  have : printed o = if 2 ≤ g ∨ g ≤ 0 ∧ 0 < e then .basis else if g = 1 then .leads else .solve := by
    unfold printed
    rw [h5, h6]
    dsimp only
    split_ifs <;> first | rfl | omega
  unfold pathOf
  rw [h1, h2, h4, this]
  rcases h3 with h3 | h3
  · simp [h3]
  · simp [not_lt.mpr h3]

/-- Where the output of an execution is. -/
theorem exec_iff {E : LiftGB.Ext} {can : List Char → Bool} {argv : List (List Char)} {d d' : Disk} {so fin c : List Char} {fout : Option (List Char)} {o : Opts}
    (h : getoptions argv = .run o) (hi : o.inFile = some fin) (ho : o.outFile = fout) (hd : d fin = some c) (hne : fout ≠ some fin)
    (hcan : ∀ f, fout = some f → can f = true) :
    Exec E can argv d d' so ↔ ∃ out, Output E o c out ∧ Delivered fout d d' so out := by
  subst ho
  obtain ⟨k1, -⟩ := C88_reads (can := can) hi hd hne hcan
  have hst : ∃ d1, start o d can = (.reads c, d1) ∧ d1 = match o.outFile with
      | none => d
      | some f => fun g => if g = f then some [] else d g := by
    refine ⟨(start o d can).2, by rw [← k1], ?_⟩
    unfold start
    rw [if_neg (by simp [hi, hd])]
    cases hg : o.outFile with
    | none => simp [hi, hd]
    | some f =>
      have hf : fin ≠ f := by
        rintro rfl
        exact hne hg
      dsimp only
      rw [if_pos (hcan f hg)]
      simp [hi, hf, hd]
  obtain ⟨d1, hst, hd1⟩ := hst
  have key : ∀ out, (match o.outFile with
      | none => d' = d1 ∧ so = out
      | some f => d' = (fun g => if g = f then (d1 f).map fun x => x ++ out else d1 g) ∧ so = []) ↔ Delivered o.outFile d d' so out := by
    intro out
    subst hd1
    cases o.outFile with
    | none => exact and_comm
    | some f =>
      simp only [Delivered, if_true, Option.map_some, List.nil_append]
      constructor
      · rintro ⟨rfl, rfl⟩
        exact ⟨rfl, by simp, fun g hg => by simp [hg]⟩
      · rintro ⟨rfl, h1, h2⟩
        refine ⟨funext fun g => ?_, rfl⟩
        by_cases hg : g = f
        · rw [if_pos hg, hg, h1]
        · rw [if_neg hg, if_neg hg, h2 g hg]
  constructor
  · rintro ⟨o', c', d1', out, h1, h2, h3, h4⟩
    obtain rfl : o = o' := by rw [h] at h1; exact Options.Res.run.inj h1
    rw [hst] at h2
    simp only [Prod.mk.injEq, Start.reads.injEq] at h2
    obtain ⟨rfl, rfl⟩ := h2
    exact ⟨out, h3, (key out).1 h4⟩
  · rintro ⟨out, h1, h2⟩
    exact ⟨o, c, d1, out, h, hst, h1, (key out).2 h2⟩

end Program

variable {E : LiftGB.Ext} {can : List Char → Bool} {os : List Occ} {argv : List (List Char)} {fin : List Char} {fout : Option (List Char)} {d d' : Disk} {so : List Char}

/-- C89: over a prime field, a command line with `-g 2`, or with an elimination order and without `-g`, leads exactly to the executions of C73: the basis is delivered. -/
theorem C89_basis (hw : Writes os argv) (hr : Request os fin fout) {e : ℕ} (he : HasValue os 'e' 0 e) {g t : ℤ} (hg : HasValue os 'g' 0 g) (h2 : 2 ≤ g ∨ g ≤ 0 ∧ 0 < e)
    (hn : HasValue os 'n' 0 0) (ht : HasValue os 't' 1 t) (ht0 : 0 < t) {f : File} {names : List (List Char)} {p : ℕ} {tss : List (List Text.Mon)} (h : InputOk f names p tss)
    (hd : d fin = some f.text) (hne : fout ≠ some fin) (hcan : ∀ x, fout = some x → can x = true) :
    Exec E can argv d d' so ↔ ∃ out, EndToEnd.Run e f.text out ∧ Delivered fout d d' so out := by
  obtain ⟨o, h0, hi, ho, a1, a2, a4, a5, a6, a7, a8, a9, a10, a11, a12, -, -, -, -, a17, -⟩ := Program.settings hw hr he hg ht
  have hp : (0 : ℤ) < p := by exact_mod_cast h.prime.pos
  have a3 : o.normalForm = 0 := a17 0 hn
  rw [Program.exec_iff h0 hi ho hd hne hcan]
  refine exists_congr fun out => and_congr_left' ?_
  unfold Output
  simp [read_file h, Program.path_basis a1 a2 (.inl a3) a4 a10 a11, linearAlgebra, h2, a4, a5, a6, a7, a8, a9, a10, a12, ht0, h.prime.pos]

/-- C89: over a prime field, a command line with `-g 1` leads exactly to the executions of C87: the leading monomials are delivered. -/
theorem C89_leads (hw : Writes os argv) (hr : Request os fin fout) {e : ℕ} (he : HasValue os 'e' 0 e) {t : ℤ} (hg : HasValue os 'g' 0 1)
    (hn : HasValue os 'n' 0 0) (ht : HasValue os 't' 1 t) (ht0 : 0 < t) {f : File} {names : List (List Char)} {p : ℕ} {tss : List (List Text.Mon)} (h : InputOk f names p tss)
    (hd : d fin = some f.text) (hne : fout ≠ some fin) (hcan : ∀ x, fout = some x → can x = true) :
    Exec E can argv d d' so ↔ ∃ out, EndToEnd.RunLead e f.text out ∧ Delivered fout d d' so out := by
  obtain ⟨o, h0, hi, ho, a1, a2, a4, a5, a6, a7, a8, a9, a10, a11, a12, -, -, -, -, a17, -⟩ := Program.settings hw hr he hg ht
  have hp : (0 : ℤ) < p := by exact_mod_cast h.prime.pos
  have a3 : o.normalForm = 0 := a17 0 hn
  rw [Program.exec_iff h0 hi ho hd hne hcan]
  refine exists_congr fun out => and_congr_left' ?_
  unfold Output
  simp [read_file h, Program.path_basis a1 a2 (.inl a3) a4 a10 a11, linearAlgebra, a4, a5, a6, a7, a8, a9, a10, a12, ht0, h.prime.pos]

/-- C89: over a prime field, a command line without `-g` and `-e` leads exactly to the executions of C78, with the values of `-c`, `-d` and `-P`. -/
theorem C89_solve (hw : Writes os argv) (hr : Request os fin fout) (he : lastVal 'e' os = none) {g t : ℤ} (hg : HasValue os 'g' 0 g) (hg0 : g ≤ 0)
    (hn : HasValue os 'n' 0 0) (ht : HasValue os 't' 1 t) (ht0 : 0 < t) {c P : ℕ} {s : ℤ} (hc : HasValue os 'c' 2 c) (hc2 : c ≤ 2) (hs : HasValue os 'd' 2 s) (hs0 : 0 ≤ s) (hs4 : s ≤ 4)
    (hP : HasValue os 'P' 0 P) {f : File} {names : List (List Char)} {p : ℕ} {tss : List (List Text.Mon)} (h : InputOk f names p tss)
    (hd : d fin = some f.text) (hne : fout ≠ some fin) (hcan : ∀ x, fout = some x → can x = true) :
    Exec E can argv d d' so ↔ ∃ out, Solve.Run c s P f.text out ∧ Delivered fout d d' so out := by
  obtain ⟨o, h0, hi, ho, a1, a2, a4, a5, a6, a7, a8, a9, a10, a11, a12, a13, a14, a15, -, a17, -⟩ := Program.settings (e := 0) hw hr (.inl ⟨he, rfl⟩) hg ht
  have b1 : o.genericity = c := by rw [a13 c hc]; omega
  have b2 : o.staircase = s := by rw [a14 s hs]; omega
  have b3 : o.param = P := by rw [a15 P hP]; omega
  have hg2 : ¬ 2 ≤ g := by omega
  have hg1 : g ≠ 1 := by omega
  have a3 : o.normalForm = 0 := a17 0 hn
  rw [Program.exec_iff h0 hi ho hd hne hcan]
  refine exists_congr fun out => and_congr_left' ?_
  unfold Output
  simp [read_file h, Program.path_basis a1 a2 (.inl a3) a4 a10 a11, linearAlgebra, hg2, hg1, a4, a5, a6, a7, a8, a9, a12, ht0, h.prime.pos, b1, b2, b3]

/-- C89: over a prime field, a command line with `-n k` leads exactly to the executions of C76, whatever `-g` is: the normal forms of the last `k` polynomials of the file are
delivered; with `-i` the others are taken as a Gröbner basis. -/
theorem C89_normal_forms (hw : Writes os argv) (hr : Request os fin fout) {e : ℕ} (he : HasValue os 'e' 0 e) {g t : ℤ} (hg : HasValue os 'g' 0 g)
    {k : ℕ} (hk : 0 < k) (hn : HasValue os 'n' 0 k) (hM : HasValue os 'M' 0 0) (ht : HasValue os 't' 1 t) (ht0 : 0 < t) {i : Bool} (hi : i = true ↔ Occ.flag 'i' ∈ os)
    {f : File} {names : List (List Char)} {p : ℕ} {tss : List (List Text.Mon)} (h : InputOk f names p tss)
    (hd : d fin = some f.text) (hne : fout ≠ some fin) (hcan : ∀ x, fout = some x → can x = true) :
    Exec E can argv d d' so ↔ ∃ out, EndToEndNf.Run i e k f.text out ∧ Delivered fout d d' so out := by
  obtain ⟨o, h0, hin, ho, a1, a2, a4, a5, a6, a7, a8, a9, a10, a11, a12, -, -, -, -, a17, a18, a19⟩ := Program.settings hw hr he hg ht
  have hp : (0 : ℤ) < p := by exact_mod_cast h.prime.pos
  have b1 : o.normalForm = k := by rw [a17 k hn]; omega
  have b2 : o.nfMatrix = 0 := a18 0 hM
  have b3 : decide (o.isGb = 1) = i := by rw [Bool.eq_iff_iff, decide_eq_true_iff, a19, hi]
  have b4 : pathOf o p = .normalForms := by
    unfold pathOf
    rw [if_pos hp, a4, a1, a2, b1, if_neg (by omega : ¬ (k : ℤ) = 0)]
    simp
  rw [Program.exec_iff h0 hin ho hd hne hcan]
  refine exists_congr fun out => and_congr_left' ?_
  unfold Output
  simp [read_file h, b4, linearAlgebra, a4, a5, a6, a7, a8, a9, a10, a12, ht0, b1, b2, b3]

/-- C89: over the rationals, a command line with `-g 2`, or with an elimination order and without `-g`, leads exactly to the executions of C79. -/
theorem C89_basis_rational (hw : Writes os argv) (hr : Request os fin fout) {e : ℕ} (he : HasValue os 'e' 0 e) {g : ℤ} (hg : HasValue os 'g' 0 g) (h2 : 2 ≤ g ∨ g ≤ 0 ∧ 0 < e)
    {t : ℕ} (ht : HasValue os 't' 1 t) (ht0 : 0 < t) {f : File} {names : List (List Char)} {tss : List (List Text.Mon)} (h : InputOkQ f names tss)
    (hd : d fin = some f.text) (hne : fout ≠ some fin) (hcan : ∀ x, fout = some x → can x = true) :
    Exec E can argv d d' so ↔ ∃ out, (∃ n us, EndToEndQq.Run E t e n f.text us (.printed out)) ∧ Delivered fout d d' so out := by
  obtain ⟨o, h0, hi, ho, a1, a2, a4, a5, a6, a7, a8, a9, a10, a11, a12, -⟩ := Program.settings hw hr he hg ht
  rw [Program.exec_iff h0 hi ho hd hne hcan]
  refine exists_congr fun out => and_congr_left' ?_
  unfold Output
  simp [read_fileQ h.file, Program.path_basis a1 a2 (.inr le_rfl) a4 a10 a11, linearAlgebra, h2, a4, a5, a6, a7, a8, a9, a10, a12, ht0]

/-- C89: over the rationals, a command line with `-g 1` leads exactly to the executions of C86. -/
theorem C89_leads_rational (hw : Writes os argv) (hr : Request os fin fout) {e : ℕ} (he : HasValue os 'e' 0 e) (hg : HasValue os 'g' 0 1)
    {t : ℤ} (ht : HasValue os 't' 1 t) (ht0 : 0 < t) {f : File} {names : List (List Char)} {tss : List (List Text.Mon)} (h : InputOkQ f names tss)
    (hd : d fin = some f.text) (hne : fout ≠ some fin) (hcan : ∀ x, fout = some x → can x = true) :
    Exec E can argv d d' so ↔ ∃ out, (∃ n us, ExportQq.RunLm e n f.text us (.printed out)) ∧ Delivered fout d d' so out := by
  obtain ⟨o, h0, hi, ho, a1, a2, a4, a5, a6, a7, a8, a9, a10, a11, a12, -⟩ := Program.settings hw hr he hg ht
  rw [Program.exec_iff h0 hi ho hd hne hcan]
  refine exists_congr fun out => and_congr_left' ?_
  unfold Output
  simp [read_fileQ h.file, Program.path_basis a1 a2 (.inr le_rfl) a4 a10 a11, linearAlgebra, a4, a5, a6, a7, a8, a9, a10, a12, ht0]

/-- C89: over the rationals, a command line without `-g` and `-e` leads exactly to the executions of C83, with the values of `-c`, `-d`, `-t`, `-p` and `-P`. -/
theorem C89_solve_rational (hw : Writes os argv) (hr : Request os fin fout) (he : lastVal 'e' os = none) {g : ℤ} (hg : HasValue os 'g' 0 g) (hg0 : g ≤ 0)
    {c P t q : ℕ} {s : ℤ} (ht : HasValue os 't' 1 t) (ht0 : 0 < t) (hc : HasValue os 'c' 2 c) (hc2 : c ≤ 2) (hs : HasValue os 'd' 2 s) (hs0 : 0 ≤ s) (hs4 : s ≤ 4)
    (hP : HasValue os 'P' 0 P) (hq : HasValue os 'p' 128 q) {f : File} {names : List (List Char)} {tss : List (List Text.Mon)} (h : InputOkQ f names tss)
    (hd : d fin = some f.text) (hne : fout ≠ some fin) (hcan : ∀ x, fout = some x → can x = true) :
    Exec E can argv d d' so ↔ ∃ out, (∃ sys ps, SolveQ.Run c s t q P f.text sys ps out) ∧ Delivered fout d d' so out := by
  obtain ⟨o, h0, hi, ho, a1, a2, a4, a5, a6, a7, a8, a9, a10, a11, a12, a13, a14, a15, a16, -⟩ := Program.settings (e := 0) hw hr (.inl ⟨he, rfl⟩) hg ht
  have b1 : o.genericity = c := by rw [a13 c hc]; omega
  have b2 : o.staircase = s := by rw [a14 s hs]; omega
  have b3 : o.param = P := by rw [a15 P hP]; omega
  have b4 : o.precision = q := by rw [a16 q hq, if_pos (Int.natCast_nonneg q)]
  have hg2 : ¬ 2 ≤ g := by omega
  have hg1 : g ≠ 1 := by omega
  rw [Program.exec_iff h0 hi ho hd hne hcan]
  refine exists_congr fun out => and_congr_left' ?_
  unfold Output
  simp [read_fileQ h.file, Program.path_basis a1 a2 (.inr le_rfl) a4 a10 a11, linearAlgebra, hg2, hg1, a4, a5, a6, a7, a8, a9, a12, ht0, b1, b2, b3, b4]

/-- C89: from the command line to the file: with `-g 2` or an elimination order, after every execution of the program on a file over a prime field the output file contains comments and
the reduced Gröbner basis of the ideal of the input file, and no other file was changed; there is such an execution, and all give the same text.  The degrees in the reduced basis are assumed to be below `2^16`. -/
theorem C89_groebner (hw : Writes os argv) (hr : Request os fin (some fo)) {e : ℕ} (he : HasValue os 'e' 0 e) {g t : ℤ} (hg : HasValue os 'g' 0 g)
    (h2 : 2 ≤ g ∨ g ≤ 0 ∧ 0 < e) (hn : HasValue os 'n' 0 0) (ht : HasValue os 't' 1 t) (ht0 : 0 < t) {f : File} {names : List (List Char)} {p : ℕ} {tss : List (List Text.Mon)}
    (h : InputOk f names p tss) (hen : e < names.length) (hd : d fin = some f.text) (hne : fo ≠ fin) (hcan : can fo = true)
    {O : OKind} (hO : O = if e = 0 then .drl else .be e)
    (hdeg : have : Fact p.Prime := ⟨h.prime⟩
      ∀ B, IsReducedGroebner O.mo (inputIdeal names.length p tss) B → ∀ g ∈ B, g.totalDegree < 65536) :
    have : Fact p.Prime := ⟨h.prime⟩
    ∃ (cs : List (List Char)) (gs : List (List Text.Mon)),
      Comments names p e gs.length cs ∧
      (∀ g ∈ gs, g ≠ [] ∧ (∀ t ∈ g, t.Ok names ∧ t.denom = 1 ∧ 0 < t.numer ∧ t.numer < p) ∧
        g.Pairwise fun a b => O.lt (b.vec names.length) (a.vec names.length)) ∧
      gs.Pairwise (fun a b => ∀ s ∈ a.head?, ∀ t ∈ b.head?, O.lt (s.vec names.length) (t.vec names.length)) ∧
      IsReducedGroebner O.mo (inputIdeal names.length p tss) { q | ∃ g ∈ gs, q = Text.poly p names.length g } ∧
      ∀ d' so, Exec E can argv d d' so ↔ so = [] ∧ (∀ x, x ≠ fo → d' x = d x) ∧
        d' fo = some ((cs.map comment).flatten ++ '[' :: List.intercalate ",\n".toList (gs.map (Text.line names)) ++ "]:\n".toList) := by
  intro hF
  obtain ⟨out, hrun⟩ := C73_exists h hen
  obtain ⟨cs, gs, h1, h3, h4, h5, h6⟩ := C73_groebner h hO hdeg hrun
  refine ⟨cs, gs, h3, h4, h5, h6, fun d' so => ?_⟩
  rw [C89_basis (E := E) (can := can) (d' := d') (so := so) hw hr he hg h2 hn ht ht0 h hd (fun hc => hne (Option.some.inj hc)) (fun x hx => by
    obtain rfl := Option.some.inj hx
    exact hcan), ← h1]
  constructor
  · rintro ⟨out', hr', k1, k2, k3⟩
    rw [C73_same_ideal h h rfl hr' hrun] at k2
    exact ⟨k1, k3, k2⟩
  · rintro ⟨k1, k2, k3⟩
    exact ⟨out, hrun, k1, k3, k2⟩

/-- C89: two executions that compute a basis give the same text if the variables, the characteristic, the ideal and the value of `-e` agree, whatever the other options are. -/
theorem C89_independent {os' : List Occ} {argv' : List (List Char)} {fin' : List Char} {fout' : Option (List Char)} {E' : LiftGB.Ext} {can' : List Char → Bool} {c c' : Disk}
    {so' : List Char} (hw : Writes os argv) (hw' : Writes os' argv') (hr : Request os fin fout) (hr' : Request os' fin' fout') {e : ℕ}
    (he : HasValue os 'e' 0 e) (he' : HasValue os' 'e' 0 e) {g g' t t' : ℤ} (hg : HasValue os 'g' 0 g) (hg' : HasValue os' 'g' 0 g') (h2 : 2 ≤ g ∨ g ≤ 0 ∧ 0 < e)
    (h2' : 2 ≤ g' ∨ g' ≤ 0 ∧ 0 < e) (hn : HasValue os 'n' 0 0) (hn' : HasValue os' 'n' 0 0) (ht : HasValue os 't' 1 t) (ht' : HasValue os' 't' 1 t') (ht0 : 0 < t) (ht0' : 0 < t') {f f' : File} {names : List (List Char)} {p : ℕ}
    {tss tss' : List (List Text.Mon)} (h : InputOk f names p tss) (h' : InputOk f' names p tss') (hI : inputIdeal names.length p tss = inputIdeal names.length p tss')
    (hd : d fin = some f.text) (hd' : c fin' = some f'.text) (hne : fout ≠ some fin) (hne' : fout' ≠ some fin')
    (hcan : ∀ x, fout = some x → can x = true) (hcan' : ∀ x, fout' = some x → can' x = true) (hx : Exec E can argv d d' so) (hx' : Exec E' can' argv' c c' so') :
    ∃ out, Delivered fout d d' so out ∧ Delivered fout' c c' so' out := by
  obtain ⟨out, k1, k2⟩ := (C89_basis hw hr he hg h2 hn ht ht0 h hd hne hcan).1 hx
  obtain ⟨out', k1', k2'⟩ := (C89_basis hw' hr' he' hg' h2' hn' ht' ht0' h' hd' hne' hcan').1 hx'
  obtain rfl := C73_same_ideal h h' hI k1 k1'
  exact ⟨out, k2, k2'⟩

/-- C89: with `-n k` the line of a polynomial in the output is `0` exactly if the polynomial is in the ideal of the polynomials before the last `k`, for every execution, and
there is one.  As in C76 no polynomial of the file may be zero (part of `InputOk`). -/
theorem C89_membership (hw : Writes os argv) (hr : Request os fin fout) {e : ℕ} (he : HasValue os 'e' 0 e) {g t : ℤ} (hg : HasValue os 'g' 0 g)
    {k : ℕ} (hk : 0 < k) (hn : HasValue os 'n' 0 k) (hM : HasValue os 'M' 0 0) (ht : HasValue os 't' 1 t) (ht0 : 0 < t) (hi : Occ.flag 'i' ∉ os)
    {f : File} {names : List (List Char)} {p : ℕ} {tss : List (List Text.Mon)} (h : InputOk f names p tss) (hen : e < names.length) (hlen : k < tss.length)
    (hd : d fin = some f.text) (hne : fout ≠ some fin) (hcan : ∀ x, fout = some x → can x = true) :
    ∃ ls : List (List Char),
      List.Forall₂ (fun ts l => l = ['0'] ↔ Text.poly p names.length ts ∈ inputIdeal names.length p (tss.take (tss.length - k))) (tss.drop (tss.length - k)) ls ∧
      ∀ d' so, Exec E can argv d d' so ↔ Delivered fout d d' so ('[' :: List.intercalate ",\n".toList ls ++ "]:\n".toList) := by
  obtain ⟨out, hrun⟩ := EndToEndNf.C76_exists h hen hk hlen false
  obtain ⟨ls, h1, h2⟩ := EndToEndNf.C76_membership_partial h (isGb := false) (by simp) hrun
  refine ⟨ls, h2, fun d' so => ?_⟩
  rw [C89_normal_forms (i := false) hw hr he hg hk hn hM ht ht0 (by simp [hi]) h hd hne hcan, ← h1]
  constructor
  · rintro ⟨out', h3, h4⟩
    rwa [EndToEndNf.C76_same_classes h h (by simp) (by simp) rfl (List.forall₂_same.mpr fun ts _ => by rw [sub_self]; exact Ideal.zero_mem _) h3 hrun] at h4
  · exact fun h4 => ⟨out, hrun, h4⟩

/-- C89: without a readable input file there is no execution with an output. -/
theorem C89_needs_input {o : Opts} (h : getoptions argv = .run o) (hi : o.inFile.bind d = none) (hb : o.outFile ≠ o.inFile) : ¬ Exec E can argv d d' so := by
  rintro ⟨o', c, d1, out, h1, h2, -⟩
  obtain rfl : o = o' := by rw [h] at h1; exact Options.Res.run.inj h1
  unfold start at h2
  split_ifs at h2 with h3
  · simp at h2
  · cases hg : o.outFile with
    | none => simp [hg, hi] at h2
    | some f =>
      simp only [hg] at h2
      split_ifs at h2 with h4
      · cases hin : o.inFile with
        | none => simp [hin] at h2
        | some x =>
          have hx : x ≠ f := by
            rintro rfl
            exact hb (hg.trans hin.symm)
          rw [hin] at hi
          replace hi : d x = none := hi
          simp [hin, hx, hi] at h2
      · simp at h2

/-- C89 (finding): over the rationals the options for signatures, colon ideals and normal forms do not change which computation is chosen: a basis, its leading monomials or the
solutions are written as without them. -/
theorem C89_rational_ignores (o : Opts) {fc : ℤ} (hfc : fc ≤ 0) (q C n : ℤ) :
    pathOf { o with signatures := q, colon := C, normalForm := n } fc = pathOf o fc := by
  have h : ¬ 0 < fc := by omega
  unfold pathOf printed
  simp only [h, if_false]

/-- C89 (finding): over a prime field `-q` is looked at first, so that `-S`, `-C`, `-n` and `-g` have no effect beside it. -/
theorem C89_signatures_first (o : Opts) {fc : ℤ} (hfc : 0 < fc) (hq : 0 < o.signatures) : pathOf o fc = .signatures := by
  unfold pathOf
  rw [if_pos hfc, if_pos hq]

/-! ### Examples -/

theorem ask_writes (k : Char) : Writes [.val 'g' [k], .val 'f' "in".toList, .val 'o' "out".toList]
    [['-', 'g', k], "-f".toList, "in".toList, "-o".toList, "out".toList] :=
  .same (os := []) (s := []) .nil (by decide) (by simp) (.next (os := []) (s := []) .nil (by decide) (.next (os := []) (s := []) .nil (by decide) .nil))

theorem ask_request (k : Char) : Request [.val 'g' [k], .val 'f' "in".toList, .val 'o' "out".toList] "in".toList (some "out".toList) where
  help := by simp
  version := by simp
  saturate := by simp
  colon := by simp
  right := by simp
  file := by simp [lastVal]
  out := by simp [lastVal]
  plain := by simp [lastVal]

/-- C89: `msolve -g1 -f in -o out` on a file with `x` and `x+1` modulo 101: whatever the disk contains besides, exactly the file `out` is changed, and its content is known. -/
theorem C89_unit (hd : d "in".toList = some EndToEndLm.unFile.text) (hcan : can "out".toList = true) :
    Exec E can ["-g1".toList, "-f".toList, "in".toList, "-o".toList, "out".toList] d d' so ↔ so = [] ∧
      d' "out".toList = some (Text.leadHeaderMod 101 0 EndToEnd.twoNames 1 ++ "[]:\n".toList) ∧ ∀ x, x ≠ "out".toList → d' x = d x := by
  have hv : HasValue [.val 'g' ['1'], .val 'f' "in".toList, .val 'o' "out".toList] 'g' 0 1 :=
    .inr ⟨['1'], by simp [lastVal], by norm_num, by norm_num, ['1'], ⟨by decide, by decide⟩, .inl ⟨rfl, by decide⟩⟩
  rw [show "-g1".toList = ['-', 'g', '1'] from rfl, C89_leads (ask_writes '1') (ask_request '1') (e := 0) (.inl ⟨by simp [lastVal], rfl⟩) hv
    (.inl ⟨by simp [lastVal], rfl⟩) (t := 1) (.inl ⟨by simp [lastVal], rfl⟩) (by norm_num) EndToEndLm.unFile_ok hd (by decide) (fun x hx => by
      obtain rfl := Option.some.inj hx
      exact hcan)]
  constructor
  · rintro ⟨out, h1, h2⟩
    rw [EndToEndLm.C87_unit.2 out h1] at h2
    exact h2
  · intro h
    obtain ⟨out, h1⟩ := EndToEndLm.C87_unit.1
    refine ⟨out, h1, ?_⟩
    rw [EndToEndLm.C87_unit.2 out h1]
    exact h

/-- The hypotheses of `C89_membership` are met: `-n1` with the standard output; `y^2-5` is reduced by `x^2+3*y`. -/
example (E : LiftGB.Ext) (can : List Char → Bool) : ∃ d' so, Exec E can ["-n1".toList, "-f".toList, "in".toList]
    (fun x => if x = "in".toList then some EndToEnd.eeFile.text else none) d' so := by
  have hw : Writes [.val 'n' ['1'], .val 'f' "in".toList] ["-n1".toList, "-f".toList, "in".toList] :=
    .same (os := []) (s := []) (c := 'n') (a := ['1']) .nil (by decide) (by simp) (.next (os := []) (s := []) .nil (by decide) .nil)
  have hr : Request [.val 'n' ['1'], .val 'f' "in".toList] "in".toList none :=
    ⟨by simp, by simp, by simp, by simp, by simp, by simp [lastVal], by simp [lastVal], by simp [lastVal]⟩
  have hv : HasValue [.val 'n' ['1'], .val 'f' "in".toList] 'n' 0 (1 : ℕ) :=
    .inr ⟨['1'], by simp [lastVal], by norm_num, by norm_num, ['1'], ⟨by decide, by decide⟩, .inl ⟨rfl, by decide⟩⟩
  obtain ⟨ls, -, h⟩ := C89_membership (E := E) (can := can) (d := fun x => if x = "in".toList then some EndToEnd.eeFile.text else none) hw hr (e := 0)
    (.inl ⟨by simp [lastVal], rfl⟩) (g := 0) (.inl ⟨by simp [lastVal], rfl⟩) Nat.one_pos hv (.inl ⟨by simp [lastVal], rfl⟩) (t := 1) (.inl ⟨by simp [lastVal], rfl⟩)
    (by norm_num) (by simp) EndToEnd.eeFile_ok (by decide) (by decide) (by simp) (by simp) (by simp)
  exact ⟨_, _, (h _ _).2 ⟨rfl, rfl⟩⟩

/-- The hypotheses of `C89_groebner` are met. -/
example (E : LiftGB.Ext) : ∃ d' so, Exec E (fun _ => true) ["-g2".toList, "-f".toList, "in".toList, "-o".toList, "out".toList]
    (fun x => if x = "in".toList then some EndToEnd.eeFile.text else none) d' so := by
  have hv : HasValue [.val 'g' ['2'], .val 'f' "in".toList, .val 'o' "out".toList] 'g' 0 2 :=
    .inr ⟨['2'], by simp [lastVal], by norm_num, by norm_num, ['2'], ⟨by decide, by decide⟩, .inl ⟨rfl, by decide⟩⟩
  obtain ⟨cs, gs, -, -, -, -, h⟩ := C89_groebner (E := E) (can := fun _ => true)
    (d := fun x => if x = "in".toList then some EndToEnd.eeFile.text else none) (ask_writes '2') (ask_request '2') (e := 0)
    (.inl ⟨by simp [lastVal], rfl⟩) hv (.inl le_rfl) (.inl ⟨by simp [lastVal], rfl⟩) (t := 1) (.inl ⟨by simp [lastVal], rfl⟩) (by norm_num) EndToEnd.eeFile_ok (by decide) (by simp) (by decide) rfl
    (O := .drl) rfl EndToEnd.eeBasis_degree
  exact ⟨fun x => if x = "out".toList then some ((cs.map comment).flatten ++ '[' :: List.intercalate ",\n".toList (gs.map (Text.line EndToEnd.twoNames)) ++ "]:\n".toList)
    else if x = "in".toList then some EndToEnd.eeFile.text else none, [], (h _ _).2 ⟨rfl, fun x hx => by rw [if_neg hx], if_pos rfl⟩⟩

end Verif.Props
