import Verif.Model.Script
import Verif.Props.Reader
/-
C82: a script runs its forms, in order.
-/
open Spec
namespace Cora.Script
open Reader

/-- the forms, one after the other; `none` if one of them ends the process -/
def runAll {σ : Type} (step : σ → Sexp → Option σ) : σ → List Sexp → Option σ
  | s, [] => some s
  | s, d :: ds => (step s d).bind fun s => runAll step s ds

/-! ### the first line -/

/-- a line that fits is read whole -/
theorem chunk_line {n : Nat} {line : Bytes} (h : 10 ∉ line) (hn : line.length < n) (rest : Bytes) :
    chunk n (line ++ 10 :: rest) = (line ++ [10], rest) := by
  induction line generalizing n with
  | nil =>
    obtain ⟨n, rfl⟩ : ∃ k, n = k + 1 := ⟨n - 1, by simp only [List.length_nil] at hn; omega⟩
    simp [chunk]
  | cons c line ih =>
    simp only [List.mem_cons, not_or] at h
    simp only [List.length_cons] at hn
    obtain ⟨n, rfl⟩ : ∃ k, n = k + 1 := ⟨n - 1, by omega⟩
    have := ih (n := n) h.2 (by omega)
    simp only [List.cons_append, chunk, if_neg (Ne.symm h.1), this]

/-- of a line that does not fit, as much as fits is read -/
theorem chunk_long {n : Nat} {line : Bytes} (h : 10 ∉ line) (hn : n ≤ line.length) (rest : Bytes) :
    chunk n (line ++ rest) = (line.take n, line.drop n ++ rest) := by
  induction n generalizing line with
  | zero => simp [chunk]
  | succ n ih =>
    match line, hn, h with
    | c :: line, hn, h =>
      simp only [List.mem_cons, not_or] at h
      simp only [List.length_cons] at hn
      simp only [List.cons_append, chunk, if_neg (Ne.symm h.1), ih h.2 (by omega), List.take_succ_cons, List.drop_succ_cons]

theorem fgets_eq {buf : Nat → Byte} {t a b : Bytes} (ht : t ≠ []) (hc : chunk 255 t = (a, b)) :
    fgets 256 buf t = some (fun i => if i < a.length then a.getD i 0 else if i = a.length then 0 else buf i, b) := by
  unfold fgets
  rw [if_neg (by simpa using ht)]
  show some (_, (chunk 255 t).2) = _
  rw [hc]

theorem skipLine_some {buf buf' : Nat → Byte} {t rest : Bytes} (h : fgets 256 buf t = some (buf', rest)) :
    skipLine buf t = if buf' 254 ≠ 10 then some rest else skipLine buf' rest := by
  rw [skipLine]
  split
  · rename_i h'; rw [h] at h'; cases h'
  · rename_i h'; rw [h] at h'; cases h'; rfl

theorem skipLine_nil (buf : Nat → Byte) : skipLine buf [] = none := by
  rw [skipLine]
  split
  · rfl
  · rename_i h'; cases h'

/-- a first line of at most 253 bytes is skipped, if the buffer has no newline at its end -/
theorem skip_short {buf : Nat → Byte} (hb : buf 254 ≠ 10) {line : Bytes} (h : 10 ∉ line) (hl : line.length ≤ 253) (rest : Bytes) :
    skipLine buf (line ++ 10 :: rest) = some rest := by
  rw [skipLine_some (fgets_eq (by simp) (chunk_line h (by omega) rest)), if_pos]
  simp only [List.length_append, List.length_singleton]
  rw [if_neg (by omega)]
  split
  · decide
  · exact hb

/-! ### forms -/

theorem repl_forms {σ : Type} (step : σ → Sexp → Option σ) {t : Bytes} {ds : List Sexp} (h : FileText t ds) :
    ∃ N, ∀ n m s, N ≤ n → N ≤ m → repl step n m t s = match runAll step s ds with | some s => .done s | none => .stopped := by
  induction h with
  | done hw =>
    refine ⟨1, fun n m s hn hm => ?_⟩
    obtain ⟨n, rfl⟩ : ∃ k, n = k + 1 := ⟨n - 1, by omega⟩
    obtain ⟨m, rfl⟩ : ∃ k, m = k + 1 := ⟨m - 1, by omega⟩
    rw [repl, sexpRead, eat_only_blanks hw]
    rfl
  | @form k t d r ds h hk _ ih =>
    obtain ⟨N1, h1⟩ := text_reads h r hk
    obtain ⟨N2, h2⟩ := ih
    refine ⟨max N1 N2 + 1, fun n m s hn hm => ?_⟩
    obtain ⟨m, rfl⟩ : ∃ k, m = k + 1 := ⟨m - 1, by omega⟩
    rw [repl, h1 n (by omega)]
    simp only [runAll]
    cases hs : step s d with
    | none => rfl
    | some s' =>
      simp only [Option.bind_some]
      exact h2 n m s' (by omega) (by omega)

/-- **C82**. A script is a first line and a text with any number of forms, with blanks and comments between them. If the first line has at
most 253 bytes, and the buffer for it happens to have no newline in its last place, the forms are expanded and evaluated one after the
other, each in the state that the ones before have left, after `*command-line-args*` was set to the arguments of the process
from the script's name on. -/
theorem C82_script_partial {σ : Type} (step : σ → Sexp → Option σ) (setArgs : σ → List Bytes → σ) {buf : Nat → Byte} (hb : buf 254 ≠ 10)
    (prog : Bytes) (args : List Bytes) {line : Bytes} (h : 10 ∉ line) (hl : line.length ≤ 253) {text : Bytes} {ds : List Sexp} (ht : FileText text ds)
    (s : σ) : ∃ N, ∀ n m, N ≤ n → N ≤ m → script step setArgs buf (prog :: args) n m (line ++ 10 :: text) s =
      match runAll step (setArgs s args) ds with | some s => .done s | none => .stopped := by
  obtain ⟨N, hN⟩ := repl_forms step ht
  have ha : commandLineArgs (prog :: args) = args := by
    have hf : ∀ (l acc : List Bytes), l.foldl (fun args a => a :: args) acc = l.reverse ++ acc := by
      intro l
      induction l with
      | nil => intro acc; rfl
      | cons a l ih => intro acc; simp [ih]
    simp [commandLineArgs, hf]
  refine ⟨N, fun n m hn hm => ?_⟩
  simp only [script, skip_short hb h hl text, ha]
  exact hN n m _ hn hm

/-- The forms of an interactive session, or of the rest of a script, are run in order. -/
theorem C82_repl {σ : Type} (step : σ → Sexp → Option σ) {text : Bytes} {ds : List Sexp} (ht : FileText text ds) (s : σ) :
    ∃ N, ∀ n m, N ≤ n → N ≤ m → repl step n m text s = match runAll step s ds with | some s => .done s | none => .stopped := by
  obtain ⟨N, hN⟩ := repl_forms step ht
  exact ⟨N, fun n m hn hm => hN n m s hn hm⟩

/-! ### where scripts are not run -/

/-- The first line is skipped whether it starts with `#!` or not: of a script without such a line the first line is not run. -/
theorem C82_no_shebang_wrong {buf : Nat → Byte} (hb : buf 254 ≠ 10) {line : Bytes} (h : 10 ∉ line) (hl : line.length ≤ 253) (rest : Bytes)
    (_ : ¬ [35, 33] <+: line) : skipLine buf (line ++ 10 :: rest) = some rest := skip_short hb h hl rest

/-- Of a first line of 255 bytes or more, everything from byte 255 on is run as a program. -/
theorem C82_long_line_wrong (buf : Nat → Byte) {line : Bytes} (h : 10 ∉ line) (hl : 255 ≤ line.length) (rest : Bytes) :
    skipLine buf (line ++ rest) = some (line.drop 255 ++ rest) := by
  have hne : line ++ rest ≠ [] := by
    intro hn
    rw [List.append_eq_nil_iff] at hn
    rw [hn.1] at hl
    simp at hl
  rw [skipLine_some (fgets_eq hne (chunk_long h hl rest)), if_pos]
  have hlt : 254 < (line.take 255).length := by simp; omega
  simp only [if_pos hlt]
  intro hc
  apply h
  have hg : (line.take 255).getD 254 0 = (line.take 255)[254] := by
    rw [List.getD_eq_getElem?_getD, List.getElem?_eq_getElem hlt]; rfl
  rw [hg] at hc
  rw [← hc]
  exact List.mem_of_mem_take (List.getElem_mem hlt)

/-- lines of at most 253 bytes, each with its newline -/
def Lines (t : Bytes) : Prop := ∃ ls : List Bytes, t = ls.flatMap (· ++ [10]) ∧ ∀ l ∈ ls, 10 ∉ l ∧ l.length ≤ 252

theorem skip_all {buf : Nat → Byte} (hb : buf 254 = 10) : ∀ (ls : List Bytes), (∀ l ∈ ls, 10 ∉ l ∧ l.length ≤ 252) →
    skipLine buf (ls.flatMap (· ++ [10])) = none
  | [], _ => skipLine_nil buf
  | l :: ls, h => by
    obtain ⟨h1, h2⟩ := h l (by simp)
    have he : (l :: ls).flatMap (· ++ [10]) = l ++ 10 :: ls.flatMap (· ++ [10]) := by simp
    rw [he, skipLine_some (fgets_eq (by simp) (chunk_line h1 (by omega) _)), if_neg]
    · refine skip_all ?_ ls fun x hx => h x (by simp [hx])
      simp only [List.length_append, List.length_singleton]
      rw [if_neg (by omega), if_neg (by omega)]
      exact hb
    · simp only [List.length_append, List.length_singleton]
      rw [if_neg (by omega), if_neg (by omega)]
      exact fun h => h hb

/-- The buffer is not initialised. If its last place happens to hold a newline, a script of short lines is not run at all: the process exits
with an error. -/
theorem C82_buffer_wrong {σ : Type} (step : σ → Sexp → Option σ) (setArgs : σ → List Bytes → σ) {buf : Nat → Byte} (hb : buf 254 = 10)
    (argv : List Bytes) (n m : Nat) {t : Bytes} (ht : Lines t) (s : σ) : script step setArgs buf argv n m t s = .exit := by
  obtain ⟨ls, rfl, h⟩ := ht
  simp only [script, skip_all hb ls h]

/-- So it is for every buffer if the first line has 254 bytes, which put a newline there. -/
theorem C82_line_254_wrong {σ : Type} (step : σ → Sexp → Option σ) (setArgs : σ → List Bytes → σ) (buf : Nat → Byte)
    (argv : List Bytes) (n m : Nat) {line : Bytes} (h : 10 ∉ line) (hl : line.length = 254) {t : Bytes} (ht : Lines t) (s : σ) :
    script step setArgs buf argv n m (line ++ 10 :: t) s = .exit := by
  obtain ⟨ls, rfl, hls⟩ := ht
  have hnl : ((line ++ [10]).getD 254 0 : Byte) = 10 := by
    rw [List.getD_eq_getElem?_getD, List.getElem?_append_right (by omega), hl]; rfl
  have : skipLine buf (line ++ 10 :: ls.flatMap (· ++ [10])) = none := by
    rw [skipLine_some (fgets_eq (by simp) (chunk_line h (by omega) _)), if_neg]
    · refine skip_all ?_ ls hls
      rw [if_pos (by simp; omega)]
      exact hnl
    · rw [if_pos (by simp; omega)]
      exact fun h => h hnl
  simp only [script, this]

/-- The hypotheses of `C82_script_partial` hold of a script with a shebang line, a comment and two forms; `step` keeps what was run. -/
example : ∃ N, ∀ n m, N ≤ n → N ≤ m → script (fun s d => some (s ++ [d])) (fun s as => s ++ as.map .str) (fun _ => 0) [ascii "cora", ascii "x.cora"] n m
    (ascii "#!/usr/bin/env cora" ++ 10 :: ascii "12 ;c
7
") [] = .done [.str (ascii "x.cora"), .int 12, .int 7] := by
  have h7 : Text false (ascii " ;c
7") (.int 7) := Text.blank (ws := [32, 59, 99, 10]) (t := [55]) (.blank (.inl rfl) (.comment (body := [99]) (by decide) .nil))
    (.num (by decide) (by unfold IsDigit; decide) (by decide) (by decide))
  have ht : FileText (ascii "12 ;c
7
") [.int 12, .int 7] :=
    .form (k := false) (t := ascii "12") (r := ascii " ;c
7
") (.num (by decide) (by unfold IsDigit; decide) (by decide) (by decide)) (fun _ c r e => by cases e; exact .inl (.inl rfl))
      (.form (k := false) (r := [10]) h7 (fun _ c r e => by cases e; exact .inl (.inr (by decide))) (.done (.blank (.inr (by decide)) .nil)))
  exact C82_script_partial (fun s d => some (s ++ [d])) (fun s as => s ++ as.map .str) (buf := fun _ => 0) (by decide) (ascii "cora")
    [ascii "x.cora"] (line := ascii "#!/usr/bin/env cora") (by decide) (by decide) ht []

/-- a first line of 254 bytes exists, and so do scripts of short lines -/
example : Lines (ascii "(a)
(b)
") := ⟨[ascii "(a)", ascii "(b)"], by decide, by decide⟩

end Cora.Script
