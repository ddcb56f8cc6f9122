import Verif.Props.Checked
import Verif.Props.Repl
/-
C78: concrete files that meet the hypotheses of the theorems about files of several forms, of one form and of notes
(Props/Source and Props/Checked).
-/
open Spec Spec.Lang
namespace Cora.Toc
open Macro

/-- `C78_forms_partial`: a file that imports a package, has a note, a definition and an expression, one form on a line -/
example : ∃ src : Bytes, ∃ t ts k2, TopExpansions initMacros 1 (.list [kw "import", .str "a"] :: withoutNotes noted1) (t :: ts) ∧
    ∃ N, ∀ n, N ≤ n → program someSetting n src 1 = some (resolveTops (fun _ => []) "" [] t ts, k2) := by
  obtain ⟨ts, -, hsrc⟩ := Repl.isText_lines (ds := .list [kw "import", .str "a"] :: noted1)
    (ss := (Datum.list [kw "import", .str "a"] :: noted1).filterMap Datum.sexp) rfl (by decide +kernel)
  exact ⟨_, C78_forms_partial (T := someSetting) (mt := initMacros) (k1 := 1) (imps := ["a"]) (noted := noted1) ⟨rfl, rfl, initMacros_std, rfl⟩
    (Nat.le_refl 1) hsrc (by decide) (plain_of.mpr ⟨by decide, by decide⟩) (by decide) (by
      simp only [noted1, withoutNotes, Datum.isNote, Datum.list]
      intro d hd
      simp [setG, Core.form, Datum.list] at hd
      rcases hd with rfl | rfl
      · exact top_define initMacros_std (x_expandable 1)
      · exact top_expr (setG_expandable 1))⟩

/-- `C78_form_partial`: a file with a single definition -/
example : ∃ src : Bytes, ∃ t k2, TopExpansions initMacros 1 [.list [kw "def", kw "f", kw "x"]] [t] ∧
    ∃ N, ∀ n, N ≤ n → program someSetting n src 1 = some (t.resolve (fun _ => []) "" [], k2) := by
  obtain ⟨src, -, hsrc⟩ := isText_printed (d := .list [kw "def", kw "f", kw "x"]) (s := _) rfl (printable_spec (by decide +kernel))
  exact ⟨_, C78_form_partial (T := someSetting) (mt := initMacros) (k1 := 1) ⟨rfl, rfl, initMacros_std, rfl⟩ (Nat.le_refl 1) hsrc (by
      intro h r e
      cases e
      rintro x ⟨⟩; simp [kw]) rfl (top_define initMacros_std (x_expandable 1))⟩

/-- `C78_notes`: with and without the note of `noted1`, the same C file -/
example : ∃ src src' : Bytes, src ≠ src' ∧ ∃ N, ∀ n, N ≤ n → ∀ k, compileToC someSetting n src k = compileToC someSetting n src' k := by
  obtain ⟨src, h1, hsrc⟩ := isText_printed (d := packageWith "p" [.export_ [.named "f"]] noted1) (s := _) rfl
    (printable_spec (by decide +kernel))
  obtain ⟨src', h2, hsrc'⟩ := isText_printed (d := packageWith "p" [.export_ [.named "f"]] (withoutNotes noted1)) (s := _) rfl
    (printable_spec (by decide +kernel))
  refine ⟨_, _, ?_, C78_notes (T := someSetting) rfl hsrc hsrc' (plain_of.mpr ⟨by decide, by decide⟩) ?_ rfl⟩
  · intro e
    simp only [List.append_cancel_right_eq, List.append_cancel_left_eq] at e
    subst e
    rw [← h1] at h2
    exact absurd h2 (by decide +kernel)
  · exact plain_of.mpr ⟨by decide, by decide⟩

/-- `C78_only_note_wrong`: a file with a note only -/
example : ∃ src : Bytes, ∃ N, ∀ n, N ≤ n → ∀ k, program someSetting n src k = none := by
  obtain ⟨src, -, hsrc⟩ := isText_printed (d := .list [kw ":type", kw "f", kw "int"]) (s := _) rfl (printable_spec (by decide +kernel))
  exact ⟨_, C78_only_note_wrong (T := someSetting) (d := .list [kw ":type", kw "f", kw "int"]) rfl rfl hsrc fun imps k mt k1 h => by cases h; exact initMacros_std⟩

/-- `C78_checked_forms_partial`: a note and a definition, with types checked -/
example : ∃ src : Bytes, ∃ t ts k2, TopExpansions initMacros 1 (checked notedC) (t :: ts) ∧
    ∃ N, ∀ n, N ≤ n → program { someSetting with check := true } n src 1 = some (resolveTops (fun _ => []) "" [] t ts, k2) := by
  obtain ⟨ts, -, hsrc⟩ := Repl.isText_lines (ds := notedC) (ss := notedC.filterMap Datum.sexp) rfl (by decide +kernel)
  exact ⟨_, C78_checked_forms_partial (T := { someSetting with check := true }) (mt := initMacros) (k1 := 1) (imps := []) (noted := notedC)
    ⟨rfl, rfl, initMacros_std, rfl⟩ (Nat.le_refl 1) hsrc (by decide) (plain_of.mpr ⟨by decide, by decide⟩) notedC_expandable⟩

end Cora.Toc
