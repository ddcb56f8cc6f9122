import Verif.Lemmas.CodeSem
/-
The machine that runs generated C files does what the machine that runs compiled programs does.
-/
open Spec.Lang Spec.C
namespace Cora.Compile
variable {W : Type}

/-- the text of a compiled program -/
def TextOf (lams : List Lam) (text : Bytes) : Prop := ∃ g, FileOk g lams ∧ generateC g lams = some text

/-- the texts of compiled programs -/
def TextsOf (units : List (List Lam)) (files : List Bytes) : Prop :=
  units.length = files.length ∧ ∀ (u : Nat) (lams : List Lam) (text : Bytes), units[u]? = some lams → files[u]? = some text → TextOf lams text

theorem textsOf_nil : TextsOf [] [] := ⟨rfl, by simp⟩

theorem TextsOf.snoc {units : List (List Lam)} {files : List Bytes} (h : TextsOf units files) {lams : List Lam} {text : Bytes}
    (h' : TextOf lams text) : TextsOf (units ++ [lams]) (files ++ [text]) := by
  refine ⟨by simp [h.1], fun u l t hl ht => ?_⟩
  by_cases hu : u < units.length
  · rw [List.getElem?_append_left hu] at hl
    rw [List.getElem?_append_left (h.1 ▸ hu)] at ht
    exact h.2 u l t hl ht
  · rw [List.getElem?_append_right (by omega)] at hl
    rw [List.getElem?_append_right (by have := h.1; omega)] at ht
    rw [List.getElem?_singleton] at hl ht
    split at hl <;> split at ht <;> simp_all

theorem readFile_text {g : Gen} {lams : List Lam} {text : Bytes} (h : FileOk g lams) (ht : generateC g lams = some text) :
    readFile text = some ⟨g.globals.map symOf, funNumber (cFile g lams), (lams.mapIdx fun i l => (group i, cBody g i l)).map (·.2),
      lams.length - 1⟩ := by
  obtain ⟨b, hb, hp⟩ := parse_file h
  rw [ht, Option.some.injEq] at hb
  subst hb
  rw [readFile, hp]
  simp only [Option.bind_eq_bind, Option.bind_some]
  rw [if_pos (valid_cFile h), loadFile_cFile h, functions_cFile]
  rfl

theorem textBlock_eq {units : List (List Lam)} {files : List Bytes} (h : TextsOf units files) (O : Outside W) {u l : Nat} {s : Mach W}
    (hs : s.ctx.fn = .code u l) :
    textBlock O files u l s = (units[u]?).bind fun code => (code[l]?).bind fun lam => lam.block O u s := by
  rw [textBlock]
  cases hu : units[u]? with
  | none =>
    have : files[u]? = none := by
      rw [List.getElem?_eq_none_iff] at hu ⊢
      have := h.1
      omega
    rw [this]; rfl
  | some lams =>
    obtain ⟨hlt, _⟩ := List.getElem?_eq_some_iff.mp hu
    have hf : files[u]? = some (files[u]'(h.1 ▸ hlt)) := List.getElem?_eq_getElem _
    obtain ⟨g, hok, hg⟩ := h.2 u lams _ hu hf
    rw [hf]
    simp only [Option.bind_eq_bind, Option.bind_some]
    rw [readFile_text hok hg]
    simp only [Option.bind_some]
    rw [List.getElem?_map, List.getElem?_mapIdx]
    cases hl : lams[l]? with
    | none => rfl
    | some lam =>
      obtain ⟨hlt', _⟩ := List.getElem?_eq_some_iff.mp hl
      simp only [Option.map_some, Option.bind_some]
      exact run_cBody (loaded_cFile u) O (hok.lam lam (List.mem_of_getElem? hl)) hlt' hs

theorem goText_eq {units : List (List Lam)} {files : List Bytes} (h : TextsOf units files) (O : Outside W) :
    ∀ (n : Nat) (s : Mach W) (a : Option MAct), goText O files n s a = go O units n s a := by
  intro n
  induction n with
  | zero => intro s a; rfl
  | succ n ih =>
    intro s a
    cases a with
    | none =>
      rw [goText, go]
      cases hs : s.ctx.fn with
      | code u l =>
        simp only
        rw [textBlock_eq h O hs]
        cases hu : units[u]? with
        | none => rfl
        | some code =>
          simp only [Option.bind_some]
          cases hl : code[l]? with
          | none => rfl
          | some lam =>
            simp only [Option.bind_some]
            cases lam.block O u s with
            | none => rfl
            | some r => exact ih _ _
      | _ => simp only [ih] <;> rfl
    | some a =>
      cases a with
      | ret v => rw [goText, go]; simp only [ih] <;> rfl
      | call f args => rw [goText, go]; simp only [ih] <;> rfl

end Cora.Compile
