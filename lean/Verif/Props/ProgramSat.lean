import Verif.ProgramSat
import Verif.Props.Program
import Verif.Props.EndToEndSat

/-!
C90: the whole program with `-S`.
-/
namespace Verif.Props

open Verif.Options Verif.Parse Verif.Spec Verif.Spec.CommandLine Verif.Program
open Verif.Spec.Text (File)
open Verif.F4 (OKind)
open Verif.Props.EndToEnd (InputOk inputIdeal read_file Comments comment)

variable {can : List Char → Bool} {os : List Occ} {argv : List (List Char)} {fin fo : List Char} {d d' : Disk}

/-- C90: over a prime field, a command line with `-S` leads exactly to the executions of the saturation, whatever `-C` and `-n` say; exactly the output file is changed. -/
theorem C90_program (hw : Writes os argv) (hr : SatRequest os fin fo) {g t : ℤ} (hg : HasValue os 'g' 0 g) (ht : HasValue os 't' 1 t) (ht0 : 0 < t)
    {f : File} {names : List (List Char)} {p : ℕ} {tss : List (List Text.Mon)} (h : InputOk f names p tss) (hd : d fin = some f.text) (hne : fo ≠ fin) (hcan : can fo = true) :
    ExecSat can argv d d' ↔ ∃ const out, EndToEndSat.Run (max 0 (min 2 g)) f.text const out ∧ d' fo = some out ∧ ∀ x, x ≠ fo → d' x = d x := by
  obtain ⟨o, h0, hf, -, ho, -, hI, hS, hC, kt, kv, kl, -, -, ku, -, kL, kN, kg, -, -, ke, kn, kM, kP, kp, kq⟩ :=
    C88_settings hw hr.help hr.version hr.right (.inl (by rw [hr.file]; simp))
  have pl : ∀ c, c ∈ "eqlNLuv".toList → lastVal c os = none := hr.plain
  have b1 : o.printGb = max 0 (min 2 g) := by
    have := Program.follows_value kg hg rfl
    exact this
  have b2 : o.threads = t := by
    have := Program.follows_value kt ht rfl
    exact this
  have b3 : o.saturate = 1 := by rw [hS, if_pos hr.saturate]
  have b4 : o.isGb = 0 := by rw [hI, if_neg hr.gens]
  have b5 : o.elim = 0 := ke.1 (pl _ (by decide))
  have b6 : o.signatures = 0 := kq.1 (pl _ (by decide))
  have b7 : o.la = 2 := kl.1 (pl _ (by decide))
  have b8 : o.truncate = 0 := kN.1 (pl _ (by decide))
  have b9 : o.updateHt = 0 := ku.1 (pl _ (by decide))
  have b10 : o.info = 0 := kv.1 (pl _ (by decide))
  rw [hr.file] at hf
  rw [hr.out] at ho
  have hp : (0 : ℤ) < p := by exact_mod_cast h.prime.pos
  have hst : start o d can = (.reads f.text, fun x => if x = fo then some [] else d x) := by
    unfold start
    rw [if_neg (by simp [hf, hd]), ho]
    dsimp only
    rw [if_pos hcan]
    simp [hf, hne.symm, hd]
  have hpath : pathOf o p = .saturate := by
    unfold pathOf
    rw [if_pos hp, b6, b3]
    simp
  constructor
  · rintro ⟨o', c, d1, r, const, out, f', k1, k2, k3, -, -, -, -, -, -, -, -, -, k4, k5, rfl⟩
    obtain rfl : o = o' := by rw [h0] at k1; exact Options.Res.run.inj k1
    rw [hst] at k2
    simp only [Prod.mk.injEq, Start.reads.injEq] at k2
    obtain ⟨rfl, rfl⟩ := k2
    rw [ho] at k5
    obtain rfl := Option.some.inj k5
    rw [b1] at k4
    exact ⟨const, out, k4, by simp, fun x hx => by simp [hx]⟩
  · rintro ⟨const, out, k1, k2, k3⟩
    refine ⟨o, _, _, _, const, out, fo, h0, hst, read_file h, hp, hpath, ?_, b8, b9, b10, by rw [b2]; exact ht0, b5, b4, by rw [b1]; exact k1, ho, ?_⟩
    · simp [linearAlgebra, b7]
    · funext x
      by_cases hx : x = fo
      · simp [hx, k2]
      · simp [hx, k3 x hx]

/-- C90: from the command line to the file: after `msolve -S -g 2` the output file contains comments and the reduced Gröbner basis of an ideal between the ideal of the generators and
its saturation by the last polynomial, and no other file was changed.  The degrees in this basis are assumed to be below `2^16`.

Partial: the ideal need not be the saturation, see `C90_not_saturated`. -/
theorem C90_delivered_partial (hw : Writes os argv) (hr : SatRequest os fin fo) {g t : ℤ} (hg : HasValue os 'g' 0 g) (hg2 : 2 ≤ g) (ht : HasValue os 't' 1 t) (ht0 : 0 < t)
    {f : File} {names : List (List Char)} {p : ℕ} {tss : List (List Text.Mon)} {ts : List Text.Mon} (h : InputOk f names p (tss ++ [ts]))
    (hd : d fin = some f.text) (hne : fo ≠ fin) (hcan : can fo = true)
    (hx : ExecSat can argv d d') :
    have : Fact p.Prime := ⟨h.prime⟩
    (∀ x, x ≠ fo → d' x = d x) ∧
    ∃ J : Ideal (MvPolynomial (Fin names.length) (ZMod p)), Between (inputIdeal names.length p tss) (Text.poly p names.length ts) J ∧
      ((∀ B, IsReducedGroebner OKind.drl.mo J B → ∀ g ∈ B, g.totalDegree < 65536) → ∃ (cs : List (List Char)) (gs : List (List Text.Mon)),
      Comments names p 0 gs.length cs ∧ IsReducedGroebner OKind.drl.mo J { q | ∃ g ∈ gs, q = Text.poly p names.length g } ∧
      d' fo = some ((cs.map comment).flatten ++ '[' :: List.intercalate ",\n".toList (gs.map (Text.line names)) ++ "]:\n".toList)) := by
  intro hF
  obtain ⟨const, out, k1, k2, k3⟩ := (C90_program hw hr hg ht ht0 h hd hne hcan).1 hx
  rw [show max 0 (min 2 g) = 2 by omega] at k1
  obtain ⟨J, l1, l2⟩ := EndToEndSat.C90_between_partial h k1
  refine ⟨k3, J, l1, fun hdeg => ?_⟩
  obtain ⟨cs, gs, m1, m2, -, -, m5⟩ := l2 hdeg
  exact ⟨cs, gs, m2, m5, by rw [k2, m1]⟩

/-- C90 (finding): after `msolve -S` without `-g` the output file is empty. -/
theorem C90_empty (hw : Writes os argv) (hr : SatRequest os fin fo) {t : ℤ} (hg : lastVal 'g' os = none) (ht : HasValue os 't' 1 t) (ht0 : 0 < t)
    {f : File} {names : List (List Char)} {p : ℕ} {tss : List (List Text.Mon)} (h : InputOk f names p tss) (hd : d fin = some f.text) (hne : fo ≠ fin) (hcan : can fo = true)
    (hx : ExecSat can argv d d') : d' fo = some [] := by
  obtain ⟨const, out, k1, k2, -⟩ := (C90_program hw hr (g := 0) (.inl ⟨hg, rfl⟩) ht ht0 h hd hne hcan).1 hx
  rw [k2, EndToEndSat.C90_silent k1]

/-! ### A concrete case -/

def nsTerms : List (List Text.Mon) := [[⟨false, none, [⟨0, none⟩, ⟨1, none⟩]⟩], [⟨false, none, [⟨1, none⟩]⟩]]
def nsFile : File := ⟨EndToEnd.twoNames, "65537".toList, ["x*y".toList, "y".toList], ['\n']⟩

theorem nsFile_text : nsFile.text = "x,y\n65537\nx*y,\ny\n".toList := by decide +kernel

theorem nsFile_ok : InputOk nsFile EndToEnd.twoNames 65537 nsTerms where
  file := by
    refine ⟨?_, by decide, by decide, ?_, by decide, ⟨"65537".toList, [], rfl, ⟨by decide, by decide⟩, by decide, by simp⟩, by decide, by decide, ?_,
      by decide, by decide, ?_, by unfold Text.Fits; decide +kernel⟩
    · have h : ∀ nm ∈ EndToEnd.twoNames, nm ≠ [] ∧ (∀ c ∈ nm.head?, c.isDigit = false) ∧
          ∀ c ∈ nm, c ∉ ['*', '^', '+', '-', ','] ∧ Text.isSpace c = false := by decide
      exact fun nm hm => ⟨(h nm hm).1, fun c l hcl => (h nm hm).2.1 c (by rw [hcl]; rfl), (h nm hm).2.2⟩
    · exact .cons ⟨[], [], rfl, by simp, by simp⟩ (.cons ⟨[], [], rfl, by simp, by simp⟩ .nil)
    · exact .cons ⟨by decide +kernel, by decide +kernel, by decide +kernel⟩ (.cons ⟨by decide +kernel, by decide +kernel, by decide +kernel⟩ .nil)
    · have h : ∀ ts ∈ nsTerms, ∀ t ∈ ts, (t.num ≠ none ∨ t.fs ≠ []) ∧
          (∀ a ∈ t.num, (a.n ≠ [] ∧ ∀ c ∈ a.n, c.isDigit = true) ∧ a.d = none) ∧ (∀ f ∈ t.fs, f.v < EndToEnd.twoNames.length) ∧
          (∀ f ∈ t.fs, ∀ ds ∈ f.e, (ds ≠ [] ∧ ∀ c ∈ ds, c.isDigit = true) ∧ Text.dec ds < 2 ^ 31) ∧ (t.fs.map (·.v)).Nodup := by
        decide +kernel
      intro ts hts t ht
      obtain ⟨h1, h2, h3, h4, h5⟩ := h ts hts t ht
      exact ⟨h1, fun a ha => ⟨(h2 a ha).1, fun d hd => absurd hd (by rw [(h2 a ha).2]; simp)⟩, h3, h4, h5⟩
  prime := by norm_num
  first := by
    have h : ∀ ts ∈ nsTerms, ∀ t ∈ ts.head?, ∀ a ∈ t.num, a.d = none ∧ Text.dec a.n < 2 ^ 31 ∧ (t.neg = true → Text.dec a.n ≠ 0) := by
      decide +kernel
    exact h
  inner := by
    have h : ∀ ts ∈ nsTerms, ∀ t ∈ ts.tail, ∀ a ∈ t.num, a.d = none ∧ Text.dec a.n < 2 ^ 63 - 1 ∧ Text.dec a.n ≠ 0 := by
      decide +kernel
    exact h
  expanded := by
    have h : ∀ ts ∈ nsTerms, (∀ t ∈ ts, ¬ ((65537 : ℕ) : ℤ) ∣ t.numer) ∧ (ts.map (Text.Mon.vec 2)).Nodup ∧
        ∀ t ∈ ts, ∑ i, t.vec 2 i < 65536 := by decide +kernel
    exact fun ts hts => ⟨(h ts hts).1, (h ts hts).2.1, (h ts hts).2.2⟩

/-- C90: `msolve -Sg2 -f in -o out` on the file with `x*y` and `y` may write `x*y`, which is not the basis of the saturation (`C90_not_saturated`). -/
theorem C90_command {d : Disk} (hd : d "in".toList = some nsFile.text) (hcan : can "out".toList = true) :
    ExecSat can ["-Sg2".toList, "-f".toList, "in".toList, "-o".toList, "out".toList] d
      (fun x => if x = "out".toList then some (Verif.EndToEnd.header EndToEnd.twoNames 65537 0 1 ++ "[1*x^1*y^1]:\n".toList) else d x) := by
  have hw : Writes [.flag 'S', .val 'g' ['2'], .val 'f' "in".toList, .val 'o' "out".toList] ["-Sg2".toList, "-f".toList, "in".toList, "-o".toList, "out".toList] :=
    .same (os := [.flag 'S']) (s := ['S']) (c := 'g') (a := ['2']) (.flag (by decide) .nil) (by decide) (by simp)
      (.next (os := []) (s := []) .nil (by decide) (.next (os := []) (s := []) .nil (by decide) .nil))
  have hr : SatRequest [.flag 'S', .val 'g' ['2'], .val 'f' "in".toList, .val 'o' "out".toList] "in".toList "out".toList :=
    ⟨by simp, by simp, by simp, by simp, by simp, by simp [lastVal], by simp [lastVal], by simp [lastVal]⟩
  have hv : HasValue [.flag 'S', .val 'g' ['2'], .val 'f' "in".toList, .val 'o' "out".toList] 'g' 0 2 :=
    .inr ⟨['2'], by simp [lastVal], by norm_num, by norm_num, ['2'], ⟨by decide, by decide⟩, .inl ⟨rfl, by decide⟩⟩
  refine (C90_program hw hr hv (t := 1) (.inl ⟨by simp [lastVal], rfl⟩) (by norm_num) nsFile_ok hd (by decide) hcan).2
    ⟨false, _, ?_, if_pos rfl, fun x hx => if_neg hx⟩
  rw [nsFile_text]
  exact EndToEndSat.C90_not_saturated.1

end Verif.Props
