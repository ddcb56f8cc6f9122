import Verif.Model.Os
import Verif.Spec.Shell
/-
C68: commands.
-/
open Spec
namespace Cora.Os

theorem plain_not_blank {c : UInt8} (h : plainChar c = true) : c ≠ 32 ∧ c ≠ 0 := by
  constructor <;> (rintro rfl; revert h; decide)

theorem takeWhile_all {l : Bytes} (h : ∀ c ∈ l, c ≠ 0) : l.takeWhile (· ≠ 0) = l := by
  induction l with
  | nil => rfl
  | cons c l ih =>
    rw [List.takeWhile_cons_of_pos (by simpa using h c (by simp)), ih (fun d hd => h d (List.mem_cons_of_mem _ hd))]

theorem words_append {w : Bytes} (hw : ∀ c ∈ w, plainChar c = true) (cur r : Bytes) (hc : cur ++ w ≠ []) :
    shellWords cur (w ++ 32 :: r) = (cur ++ w) :: shellWords [] r := by
  induction w generalizing cur with
  | nil =>
    rw [List.append_nil] at hc ⊢
    rw [List.nil_append, shellWords, if_pos rfl, if_neg hc]
  | cons c w ih =>
    rw [List.cons_append, shellWords, if_neg (plain_not_blank (hw c (by simp))).1,
      ih (fun d hd => hw d (List.mem_cons_of_mem _ hd)) (cur ++ [c]) (by simp)]
    simp

/-- a command whose words are plain reaches the shell as exactly these words: however many, however long -/
theorem C68_plain_words_partial (args : List Bytes) (h : ∀ w ∈ args, plainWord w) : shellWords [] (command args) = args := by
  have h0 : ∀ c ∈ cmdListStr args, c ≠ 0 := by
    induction args with
    | nil => intro c hc; cases hc
    | cons w r ih =>
      intro c hc
      simp only [cmdListStr, List.mem_append, List.mem_cons] at hc
      rcases hc with hc | hc | hc
      · exact (plain_not_blank ((h w (by simp)).2 c hc)).2
      · rw [hc]; decide
      · exact ih (fun w hw => h w (List.mem_cons_of_mem _ hw)) c hc
  have e : command args = cmdListStr args := takeWhile_all h0
  rw [e]
  clear e h0
  induction args with
  | nil => rfl
  | cons w r ih =>
    have hw := h w (by simp)
    rw [cmdListStr, words_append hw.2 [] _ (by simpa using hw.1), List.nil_append,
      ih (fun w hw => h w (List.mem_cons_of_mem _ hw))]

/-- an argument that contains a blank cannot be told from two arguments, whatever the shell does -/
theorem C68_blank_wrong (a b : Bytes) (pre post : List Bytes) :
    command (pre ++ (a ++ 32 :: b) :: post) = command (pre ++ a :: b :: post) := by
  unfold command
  congr 1
  induction pre with
  | nil => simp [cmdListStr]
  | cons w r ih => simp only [List.cons_append, cmdListStr, ih]

/-- an argument that is empty is lost -/
theorem C68_empty_wrong (args : List Bytes) (h : ∀ w ∈ args, plainWord w) : shellWords [] (command (args ++ [[]])) = args := by
  have e : command (args ++ [[]]) = command args ++ [32] := by
    have h1 : ∀ l : List Bytes, cmdListStr (l ++ [[]]) = cmdListStr l ++ [32] := by
      intro l
      induction l with
      | nil => rfl
      | cons w r ih => simp only [List.cons_append, cmdListStr, ih, List.append_assoc]
    have h0 : ∀ c ∈ cmdListStr args, c ≠ 0 := by
      clear h1
      induction args with
      | nil => intro c hc; cases hc
      | cons w r ih =>
        intro c hc
        simp only [cmdListStr, List.mem_append, List.mem_cons] at hc
        rcases hc with hc | hc | hc
        · exact (plain_not_blank ((h w (by simp)).2 c hc)).2
        · rw [hc]; decide
        · exact ih (fun w hw => h w (List.mem_cons_of_mem _ hw)) c hc
    unfold command
    rw [h1, List.takeWhile_append_of_pos (by intro c hc; simpa using h0 c hc), takeWhile_all h0]
    rfl
  have h2 : ∀ cur s, shellWords cur (s ++ [32]) = shellWords cur s := by
    intro cur s
    induction s generalizing cur with
    | nil =>
      simp only [List.nil_append, shellWords, if_true]
    | cons c s ih =>
      simp only [List.cons_append, shellWords, ih]
  rw [e, h2]
  exact C68_plain_words_partial args h

/-- `ls -l /tmp` -/
example : shellWords [] (command [[108, 115], [45, 108], [47, 116, 109, 112]]) = [[108, 115], [45, 108], [47, 116, 109, 112]] := by
  decide

end Cora.Os
