import Verif.Ide.RunnablesProps
import Verif.Ide.UsageScope

/-! C84: examples, and what is run besides. -/

namespace Verif.Ide.Runnables
open Verif Verif.Syntax Verif.Nameres
open Verif.Parser (Green)
open Verif.Nameres.Full (Is Declares)
open Verif.Outline (NameOf)
open Verif.Ide.Usages (Parsed parseOf parseOf_parsed)

def sampleText : List Char :=
  "module 0x1::m{#[test]fun t(){}#[test]fun t2(){}entry fun e(){}}address 0x2{module xm{#[test]fun t(){}fun u(){}}}module 0x3::n{}".toList

/-- What can be run in the text. -/
theorem sample_runs : runnables (parseOf sampleText).1 [] =
    [⟨"m".toList, (12, 13), (0, 63), true, .test "m::".toList⟩, ⟨"t".toList, (25, 26), (14, 30), false, .test "m::t".toList⟩,
      ⟨"t2".toList, (41, 43), (30, 47), false, .test "m::t2".toList⟩, ⟨"e".toList, (57, 58), (47, 62), false, .transaction "0x1::m::e".toList⟩,
      ⟨"xm".toList, (82, 84), (75, 111), true, .test "xm::".toList⟩, ⟨"t".toList, (96, 97), (85, 101), false, .test "xm::t".toList⟩] := by
  decide +kernel

/-- **C84 fails for tests that are run besides.** Running the test `t` of `m` also runs the test `t2` and the test of the module `xm` at
another address, and running the tests of `m` also runs those of `xm`. -/
theorem C84_only_fails : (parseOf sampleText).2 = true ∧
    (⟨"t".toList, (25, 26), (14, 30), false, .test "m::t".toList⟩ : Runnable) ∈ runnables (parseOf sampleText).1 [] ∧
    Runs "m::t".toList "0x1".toList "m".toList "t".toList ∧ Runs "m::t".toList "0x1".toList "m".toList "t2".toList ∧
    Runs "m::t".toList "0x2".toList "xm".toList "t".toList ∧
    (⟨"m".toList, (12, 13), (0, 63), true, .test "m::".toList⟩ : Runnable) ∈ runnables (parseOf sampleText).1 [] ∧
    Runs "m::".toList "0x2".toList "xm".toList "t".toList := by
  rw [sample_runs]
  unfold Runs
  decide +kernel

/-- **C84 fails for arguments that are there twice.** Of two options with the same value the second loses its value, and a value that is
the name of the command is lost. -/
theorem C84_args_fails :
    aptosArgs ["--gas-limit".toList, "100".toList, "--instructions".toList, "100".toList] [] (.test "m::t".toList) =
      ["move".toList, "test".toList, "--filter".toList, "m::t".toList, "--gas-limit".toList, "100".toList, "--instructions".toList] ∧
    aptosArgs [] ["--package-dir".toList, "move".toList] (.proveModule "m".toList) =
      ["move".toList, "prove".toList, "--filter".toList, "m".toList, "--package-dir".toList] := by decide +kernel

/-! ### Examples that meet the hypotheses -/

theorem sample_parsed : Parsed (parseOf sampleText).1 := parseOf_parsed (by decide +kernel) (by decide +kernel)

/-- C84_lenses: the test `t` of `m`. -/
theorem sample_test : ∃ m anc b mn f fn, Declares (Elem.root (parseOf sampleText).1) m anc b ∧ Is .MODULE m ∧ NameOf m mn ∧ TestOf m f ∧
    NameOf f fn ∧ fn.green.text = "t".toList ∧ mn.green.text ++ "::".toList ++ fn.green.text = "m::t".toList := by
  have h := (C84_lenses sample_parsed [] ⟨"t".toList, (25, 26), (14, 30), false, .test "m::t".toList⟩).1 (by rw [sample_runs]; decide +kernel)
  simp only [List.not_mem_nil, or_false] at h
  generalize hr : (⟨"t".toList, (25, 26), (14, 30), false, .test "m::t".toList⟩ : Runnable) = r at h
  cases h with
  | test h1 h2 h3 h4 h5 =>
    simp only [Runnable.mk.injEq, Kind.test.injEq] at hr
    exact ⟨_, _, _, _, _, _, h1, h2, h3, h4, h5, hr.1.symm, hr.2.2.2.2.symm⟩
  | entry h1 h2 h3 h4 h5 h6 h7 h8 => simp at hr
  | module h1 h2 h3 => simp at hr

/-- C84_runs, C84_only_partial: running `t` runs `t`; it does not run `s`. -/
example : ∃ r ∈ runnables (parseOf sampleText).1 [], ∃ path, r.kind = .test path ∧ ∀ a, Runs path a "m".toList "t".toList := by
  obtain ⟨m, anc, b, mn, f, fn, h1, h2, h3, h4, h5, h6, h7⟩ := sample_test
  obtain ⟨⟨r, hr, -, path, hk, h⟩, -⟩ := C84_runs sample_parsed h1 h2 h3 h4 h5 []
  rw [h6] at h h7
  have h8 : mn.green.text ++ "::t".toList = "m".toList ++ "::t".toList := by simpa using h7
  rw [List.append_cancel_right h8] at h
  exact ⟨r, hr, path, hk, h⟩

example : ¬ Runs "m::t".toList "0x1".toList "m".toList "s".toList := by
  obtain ⟨m, anc, b, mn, f, fn, h1, h2, h3, h4, h5, h6, h7⟩ := sample_test
  intro h
  have h8 : mn.green.text = "m".toList := by
    rw [h6] at h7
    have h8 : mn.green.text ++ "::t".toList = "m".toList ++ "::t".toList := by simpa using h7
    exact List.append_cancel_right h8
  rw [← h7] at h
  have hc := declares_chain sample_parsed h2 h1
  have := (C84_only_partial sample_parsed hc h3 h4.1 h5 (a := "0x1".toList) (m' := "m".toList) (f' := "s".toList) ⟨by decide +kernel, by decide +kernel⟩
    ⟨by decide +kernel, by decide +kernel⟩ ⟨by decide +kernel, by decide +kernel⟩ (fun _ => h8) (by rw [h6]; exact fun h => absurd h (by decide +kernel))
    (by rw [h8]; decide +kernel) h).2
  rw [h6] at this
  exact absurd this (by decide +kernel)

/-- C84_selects: `x1::s` is in `0x1::st::f`. -/
example : Runs "x1::s".toList "0x1".toList "st".toList "f".toList :=
  (C84_selects (m := "x1".toList) (f := "s".toList) ⟨by decide +kernel, by decide +kernel⟩ ⟨by decide +kernel, by decide +kernel⟩
    ⟨by decide +kernel, by decide +kernel⟩ ⟨by decide +kernel, by decide +kernel⟩ ⟨by decide +kernel, by decide +kernel⟩).2
    (.inr ⟨by decide +kernel, by decide +kernel⟩)

/-- C84_args_partial. -/
example : aptosArgs ["--dev".toList] [] (.test "m::t".toList) = ["move", "test", "--filter", "m::t", "--dev"].map String.toList :=
  (C84_args_partial ["--dev".toList] []).1 "m::t".toList (by decide +kernel)

end Verif.Ide.Runnables
