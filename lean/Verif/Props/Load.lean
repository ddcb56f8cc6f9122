import Verif.Spec.Load
import Verif.Props.Os
import Verif.Props.Reader
import Verif.Props.Strings
/-
C84: loading source files.
-/
open Spec Spec.Loading
namespace Cora.Load

/-! ### names -/

theorem digits_plain (n : Nat) : ∀ c ∈ Reader.decDigits n, plainChar c = true := by
  intro c hc
  have := (Reader.decDigits_spec n).2.1 c hc
  simp only [IsDigit] at this
  simp only [plainChar, Bool.or_eq_true, Bool.and_eq_true, decide_eq_true_eq]
  omega

theorem cFile_plain (n : Nat) : plainWord (cFile n) := by
  refine ⟨by simp [cFile, ascii], fun c hc => ?_⟩
  simp only [cFile, List.mem_append] at hc
  rcases hc with (hc | hc) | hc
  · exact (by decide : ∀ c ∈ ascii "/tmp/cora-xxx-", plainChar c = true) c hc
  · exact digits_plain n c hc
  · exact (by decide : ∀ c ∈ ascii ".c", plainChar c = true) c hc

theorem tmpLib_plain (n : Nat) : plainWord (tmpLib n) := by
  refine ⟨by simp [tmpLib, ascii], fun c hc => ?_⟩
  simp only [tmpLib, List.mem_append] at hc
  rcases hc with (hc | hc) | hc
  · exact (by decide : ∀ c ∈ ascii "/tmp/cora-xxx-", plainChar c = true) c hc
  · exact digits_plain n c hc
  · exact (by decide : ∀ c ∈ ascii ".so", plainChar c = true) c hc

theorem tmpLib_inj {m n : Nat} (h : tmpLib m = tmpLib n) : m = n := by
  simp only [tmpLib, List.append_cancel_right_eq, List.append_cancel_left_eq] at h
  have a := (Reader.decDigits_spec m).2.2 0
  have b := (Reader.decDigits_spec n).2.2 0
  rw [h] at a
  omega

/-- the library next to a source file -/
theorem strSub_stem (stem : Bytes) : strSub (stem ++ ascii ".cora") 0 ((stem ++ ascii ".cora").length - 5) = some stem := by
  have h5 : (ascii ".cora").length = 5 := rfl
  have e : (((stem ++ ascii ".cora").length : Int) - 5) = stem.length := by rw [List.length_append, h5]; omega
  rw [e]
  unfold strSub ptrByIdx
  rw [if_pos (Int.le_refl 0), if_pos (by omega)]
  simp only
  rw [if_pos (by omega), if_pos (by rw [List.length_append]; omega)]
  simp only
  split
  · have : stem.length = 0 := by omega
    rw [List.length_eq_zero_iff.mp this]
  · unfold readRange
    rw [if_pos ⟨Int.le_refl 0, by omega, by rw [List.length_append]; omega⟩]
    simp

theorem libFile_beside {S : Sys} {n : Nat} {stem : Bytes} (h : strCmp (stem ++ ascii ".cora") S.base > 0) :
    libFile S n (stem ++ ascii ".cora") = some (stem ++ ascii ".so") := by
  have h5 : (ascii ".cora").length = 5 := rfl
  unfold libFile
  rw [if_pos h, if_neg (by rw [List.length_append, h5]; omega), strSub_stem]
  rfl

theorem libFile_tmp {S : Sys} {n : Nat} {path : Bytes} (h : ¬ strCmp path S.base > 0) : libFile S n path = some (tmpLib n) := by
  unfold libFile
  rw [if_neg h]

theorem libFile_good {S : Sys} {n : Nat} {path lib : Bytes} (hp : GoodPath path) (h : libFile S n path = some lib) :
    plainWord lib ∧ 47 ∈ lib := by
  obtain ⟨stem, rfl, h47⟩ := hp.source
  by_cases hc : strCmp (stem ++ ascii ".cora") S.base > 0
  · rw [libFile_beside hc] at h
    cases h
    refine ⟨⟨by simp [ascii], fun c hc => ?_⟩, by simp [h47]⟩
    simp only [List.mem_append] at hc
    rcases hc with hc | hc
    · exact hp.plain.2 c (by simp [hc])
    · exact (by decide : ∀ c ∈ ascii ".so", plainChar c = true) c hc
  · rw [libFile_tmp hc] at h
    cases h
    exact ⟨tmpLib_plain n, by simp [tmpLib, ascii]⟩

/-! ### the command -/

/-- the command before it is cut -/
def whole (S : Sys) (n : Nat) (lib : Bytes) : Bytes :=
  ascii "gcc -shared -I" ++ S.srcDir ++ ascii " -g -fPIC " ++ cFile n ++ ascii " -o " ++ lib ++ ascii " -ldl -lm -L" ++ S.srcDir ++
    ascii " -lcora"

/-- its words but for the last -/
def wordsOf (S : Sys) (n : Nat) (lib : Bytes) : List Bytes :=
  [ascii "gcc", ascii "-shared", ascii "-I" ++ S.srcDir, ascii "-g", ascii "-fPIC", cFile n, ascii "-o", lib, ascii "-ldl", ascii "-lm",
    ascii "-L" ++ S.srcDir]

theorem whole_words (S : Sys) (n : Nat) (lib : Bytes) : whole S n lib = Os.cmdListStr (wordsOf S n lib) ++ ascii "-lcora" := by
  simp [whole, wordsOf, Os.cmdListStr, ascii]

theorem words_last {w : Bytes} (hw : ∀ c ∈ w, plainChar c = true) (cur : Bytes) (hc : cur ++ w ≠ []) : shellWords cur w = [cur ++ w] := by
  induction w generalizing cur with
  | nil =>
    rw [List.append_nil] at hc ⊢
    rw [shellWords, if_neg hc]
  | cons c w ih =>
    rw [shellWords, if_neg (Os.plain_not_blank (hw c (by simp))).1, ih (fun d hd => hw d (List.mem_cons_of_mem _ hd)) (cur ++ [c]) (by simp)]
    simp

theorem words_all {l : List Bytes} (hl : ∀ w ∈ l, plainWord w) {w : Bytes} (hw : plainWord w) :
    shellWords [] (Os.cmdListStr l ++ w) = l ++ [w] := by
  induction l with
  | nil => exact words_last hw.2 [] (by simpa using hw.1)
  | cons a l ih =>
    have ha := hl a (by simp)
    rw [Os.cmdListStr, List.append_assoc, List.cons_append, Os.words_append ha.2 [] _ (by simpa using ha.1), List.nil_append,
      ih fun w h => hl w (List.mem_cons_of_mem _ h)]
    rfl

theorem plain_prefix {p w : Bytes} (hp : ∀ c ∈ p, plainChar c = true) (hne : p ≠ []) (hw : ∀ c ∈ w, plainChar c = true) : plainWord (p ++ w) :=
  ⟨by simp [hne], fun c hc => (List.mem_append.mp hc).elim (hp c) (hw c)⟩

theorem wordsOf_plain {S : Sys} {n : Nat} {lib : Bytes} (hs : plainWord S.srcDir) (hl : plainWord lib) : ∀ w ∈ wordsOf S n lib, plainWord w := by
  intro w hw
  simp only [wordsOf, List.mem_cons, List.not_mem_nil, or_false] at hw
  rcases hw with rfl | rfl | rfl | rfl | rfl | rfl | rfl | rfl | rfl | rfl | rfl
  · exact ⟨by decide, by decide⟩
  · exact ⟨by decide, by decide⟩
  · exact plain_prefix (by decide) (by decide) hs.2
  · exact ⟨by decide, by decide⟩
  · exact ⟨by decide, by decide⟩
  · exact cFile_plain n
  · exact ⟨by decide, by decide⟩
  · exact hl
  · exact ⟨by decide, by decide⟩
  · exact ⟨by decide, by decide⟩
  · exact plain_prefix (by decide) (by decide) hs.2

theorem gccArgs_words (S : Sys) (n : Nat) (lib : Bytes) :
    gccArgs ((wordsOf S n lib).tail ++ [ascii "-lcora"]) = some ([cFile n], some lib) := by
  simp [wordsOf, gccArgs, ascii, cFile]

/-- the command makes the library from the C file -/
theorem link_ok {S : Sys} {d : Disk} {n : Nat} {lib c : Bytes} (hs : plainWord S.srcDir) (hl : plainWord lib)
    (hfit : (whole S n lib).length ≤ 511) (hd : d (cFile n) = some (.text c)) (hc : S.cc c = true) :
    linkStep S d n lib = (d.put lib (.lib c), true) := by
  have h1 : shellWords [] (command S n lib) = wordsOf S n lib ++ [ascii "-lcora"] := by
    have : command S n lib = whole S n lib := List.take_of_length_le hfit
    rw [this, whole_words, words_all (wordsOf_plain hs hl) ⟨by decide, by decide⟩]
  have h2 := gccArgs_words S n lib
  unfold linkStep
  rw [h1]
  simp only [wordsOf, List.cons_append, List.tail_cons] at h2 ⊢
  simp only [gcc, h2, hd, hc, if_true, List.all_nil, Bool.and_true, Option.getD_some]

/-- the C compiler refuses the C file: the command fails and writes nothing -/
theorem link_refused {S : Sys} {d : Disk} {n : Nat} {lib c : Bytes} (hs : plainWord S.srcDir) (hl : plainWord lib)
    (hfit : (whole S n lib).length ≤ 511) (hd : d (cFile n) = some (.text c)) (hc : S.cc c = false) :
    linkStep S d n lib = (d, false) := by
  have h1 : shellWords [] (command S n lib) = wordsOf S n lib ++ [ascii "-lcora"] := by
    have : command S n lib = whole S n lib := List.take_of_length_le hfit
    rw [this, whole_words, words_all (wordsOf_plain hs hl) ⟨by decide, by decide⟩]
  have h2 := gccArgs_words S n lib
  unfold linkStep
  rw [h1]
  simp only [wordsOf, List.cons_append, List.tail_cons] at h2 ⊢
  simp only [gcc, h2, hd, hc, if_true, Bool.false_and, Bool.false_eq_true, if_false]

theorem open_new {S : Sys} {d : Disk} {p : Proc} {lib c : Bytes} (h1 : p.handles.lookup lib = none) (h2 : 47 ∈ lib)
    (h3 : d lib = some (.lib c)) : openStep S d p lib = ({ p with handles := (lib, c) :: p.handles }, .ran c) := by
  have hf : findLib S d lib = some c := by
    simp [findLib, List.contains_iff_mem, h2, h3]
  simp only [openStep, h1, hf]

/-! ### histories -/

/-- what is known of a process -/
structure Inv (l : List Event) (p : Proc) : Prop where
  count : p.unique = l.length + 1
  used : ∀ x c, p.handles.lookup x = some c → ∃ e ∈ l, e.lib = x ∧ e.out = .ran c
  kept : ∀ e ∈ l, ∀ c, e.out = .ran c → p.handles.lookup e.lib = some c

theorem compileStep_eq {S : Sys} {d d1 : Disk} {p p1 : Proc} {path t : Bytes} (ht : d path = some (.text t))
    (h : compileStep S d p path = some (d1, p1)) :
    ∃ c, S.toC t = some c ∧ d1 = d.put (cFile p.unique) (.text c) ∧ p1 = { p with unique := p.unique + 1 } := by
  simp only [compileStep, ht, Option.map_eq_some_iff, Prod.mk.injEq] at h
  obtain ⟨c, h1, h2, h3⟩ := h
  exact ⟨c, h1, h2.symm, h3.symm⟩

theorem openStep_cases {S : Sys} {d : Disk} {p p' : Proc} {lib : Bytes} {o : Outcome} (h : openStep S d p lib = (p', o)) :
    (∃ c, p.handles.lookup lib = some c ∧ p' = p ∧ o = .ran c) ∨
    (∃ c, p.handles.lookup lib = none ∧ findLib S d lib = some c ∧ p' = { p with handles := (lib, c) :: p.handles } ∧ o = .ran c) ∨
    (p.handles.lookup lib = none ∧ findLib S d lib = none ∧ p' = p ∧ o = .notFound) := by
  unfold openStep at h
  split at h
  · rename_i c hc
    cases h
    exact .inl ⟨c, hc, rfl, rfl⟩
  · rename_i hn
    split at h
    · rename_i c hc
      cases h
      exact .inr (.inl ⟨c, hn, hc, rfl, rfl⟩)
    · rename_i hf
      cases h
      exact .inr (.inr ⟨hn, hf, rfl, rfl⟩)

theorem run_inv {S : Sys} {l : List Event} {d : Disk} {p : Proc} (h : Run S l d p) : Inv l p := by
  induction h with
  | start => exact ⟨rfl, fun x c h => by simp [Proc.start] at h, by simp⟩
  | other _ _ ih => exact ih
  | @load l d p path t d1 p1 lib d1' d2 d2' p2 o _ ht hcomp hlib hk hlink hk' hopen ih =>
    obtain ⟨c, _, _, rfl⟩ := compileStep_eq ht hcomp
    have hcount : p.unique + 1 = (l ++ [(⟨path, t, lib, o⟩ : Event)]).length + 1 := by
      rw [ih.count]; simp
    rcases openStep_cases hopen with ⟨c', h1, rfl, rfl⟩ | ⟨c', h1, _, rfl, rfl⟩ | ⟨h1, _, rfl, rfl⟩
    · refine ⟨hcount, fun x c h => ?_, fun e he c hc => ?_⟩
      · obtain ⟨e, he, h⟩ := ih.used x c h
        exact ⟨e, by simp [he], h⟩
      · rcases List.mem_append.mp he with he | he
        · exact ih.kept e he c hc
        · rw [List.mem_singleton] at he
          subst he
          cases hc
          exact h1
    · refine ⟨hcount, fun x c h => ?_, fun e he c hc => ?_⟩
      · rw [List.lookup_cons] at h
        split at h
        · rename_i hx
          cases h
          exact ⟨⟨path, t, lib, .ran c'⟩, by simp, (by simpa using (beq_iff_eq.mp hx).symm), rfl⟩
        · obtain ⟨e, he, h⟩ := ih.used x c h
          exact ⟨e, by simp [he], h⟩
      · rw [List.lookup_cons]
        rcases List.mem_append.mp he with he | he
        · have := ih.kept e he c hc
          split
          · rename_i hx
            rw [beq_iff_eq] at hx
            rw [hx] at this
            simp only at h1
            rw [this] at h1
            cases h1
          · exact this
        · rw [List.mem_singleton] at he
          subst he
          cases hc
          simp
    · refine ⟨hcount, fun x c h => ?_, fun e he c hc => ?_⟩
      · obtain ⟨e, he, h⟩ := ih.used x c h
        exact ⟨e, by simp [he], h⟩
      · rcases List.mem_append.mp he with he | he
        · exact ih.kept e he c hc
        · rw [List.mem_singleton] at he
          subst he
          cases hc
  | @fail l d p path t d1 p1 lib d1' d2 _ ht hcomp hlib hk hlink ih =>
    obtain ⟨c, _, _, rfl⟩ := compileStep_eq ht hcomp
    refine ⟨by rw [ih.count]; simp, fun x c h => ?_, fun e he c hc => ?_⟩
    · obtain ⟨e, he, h⟩ := ih.used x c h
      exact ⟨e, by simp [he], h⟩
    · rcases List.mem_append.mp he with he | he
      · exact ih.kept e he c hc
      · rw [List.mem_singleton] at he
        subst he
        cases hc

theorem run_step {S : Sys} {l : List Event} {d : Disk} {p : Proc} (h : Run S l d p) :
    ∀ pre e post, l = pre ++ e :: post → ∃ d p d1 p1 d1', Run S pre d p ∧ d e.path = some (.text e.text) ∧
      compileStep S d p e.path = some (d1, p1) ∧ libFile S p.unique e.path = some e.lib ∧ Kept d1 d1' [cFile p.unique] ∧
      ((∃ d2 d2' p2, linkStep S d1' p.unique e.lib = (d2, true) ∧ Kept d2 d2' [e.lib] ∧ openStep S d2' p1 e.lib = (p2, e.out)) ∨
        (∃ d2, linkStep S d1' p.unique e.lib = (d2, false) ∧ e.out = .gccFailed)) := by
  induction h with
  | start => intro pre e post h; simp at h
  | other _ _ ih => exact ih
  | @load l d p path t d1 p1 lib d1' d2 d2' p2 o hr ht hcomp hlib hk hlink hk' hopen ih =>
    intro pre e post h
    rcases List.eq_nil_or_concat post with rfl | ⟨q, z, rfl⟩
    · obtain ⟨h0, h1⟩ := List.append_inj' h rfl
      cases List.singleton_inj.mp h1
      subst h0
      exact ⟨d, p, d1, p1, d1', hr, ht, hcomp, hlib, hk, .inl ⟨d2, d2', p2, hlink, hk', hopen⟩⟩
    · rw [List.concat_eq_append, ← List.cons_append, ← List.append_assoc] at h
      exact ih pre e q (List.append_inj' h rfl).1
  | @fail l d p path t d1 p1 lib d1' d2 hr ht hcomp hlib hk hlink ih =>
    intro pre e post h
    rcases List.eq_nil_or_concat post with rfl | ⟨q, z, rfl⟩
    · obtain ⟨h0, h1⟩ := List.append_inj' h rfl
      cases List.singleton_inj.mp h1
      subst h0
      exact ⟨d, p, d1, p1, d1', hr, ht, hcomp, hlib, hk, .inr ⟨d2, hlink, rfl⟩⟩
    · rw [List.concat_eq_append, ← List.cons_append, ← List.append_assoc] at h
      exact ih pre e q (List.append_inj' h rfl).1

/-- **C84**. In every history of a process, whatever happens to other files: a load of a file with a good name, whose text compiles, runs
the code compiled from the text that the file has then, if no earlier load used the same library and the command fits into its
buffer. -/
theorem C84_runs_text_partial {S : Sys} (hs : plainWord S.srcDir) {l : List Event} {d : Disk} {p : Proc} (h : Run S l d p)
    (pre post : List Event) (e : Event) (hl : l = pre ++ e :: post) (hgood : GoodPath e.path)
    (hfit : (whole S (pre.length + 1) e.lib).length ≤ 511) (hnew : ∀ e' ∈ pre, e'.lib ≠ e.lib) {c : Bytes} (hc : S.toC e.text = some c)
    (hcc : S.cc c = true) : e.out = .ran c := by
  obtain ⟨d, p, d1, p1, d1', hr, ht, hcomp, hlib, hk, hend⟩ := run_step h pre e post hl
  have hi := run_inv hr
  obtain ⟨c', hc', rfl, rfl⟩ := compileStep_eq ht hcomp
  rw [hc] at hc'
  cases hc'
  obtain ⟨hp1, hp2⟩ := libFile_good hgood hlib
  rw [← hi.count] at hfit
  have hd : d1' (cFile p.unique) = some (.text c) := by
    rw [hk _ (by simp)]
    simp [Disk.put]
  have hlink := link_ok hs hp1 hfit hd hcc
  rcases hend with ⟨d2, d2', p2, h1, h2, h3⟩ | ⟨d2, h1, _⟩
  · rw [hlink] at h1
    cases h1
    have hn : p.handles.lookup e.lib = none := by
      cases hx : p.handles.lookup e.lib with
      | none => rfl
      | some x =>
        obtain ⟨e', he', h4, _⟩ := hi.used _ _ hx
        exact absurd h4 (hnew e' he')
    rw [open_new (p := { p with unique := p.unique + 1 }) hn hp2 (d := d2') (c := c) (by rw [h2 _ (by simp)]; simp [Disk.put])] at h3
    exact (congrArg Prod.snd h3).symm
  · rw [hlink] at h1
    cases h1

/-- **C84**, what the C compiler refuses. If the C compiler does not take what a file was compiled to, the load says so and runs
nothing, whether or not there is an older library. -/
theorem C84_refused_partial {S : Sys} (hs : plainWord S.srcDir) {l : List Event} {d : Disk} {p : Proc} (h : Run S l d p)
    (pre post : List Event) (e : Event) (hl : l = pre ++ e :: post) (hgood : GoodPath e.path)
    (hfit : (whole S (pre.length + 1) e.lib).length ≤ 511) {c : Bytes} (hc : S.toC e.text = some c) (hcc : S.cc c = false) :
    e.out = .gccFailed := by
  obtain ⟨d, p, d1, p1, d1', hr, ht, hcomp, hlib, hk, hend⟩ := run_step h pre e post hl
  have hi := run_inv hr
  obtain ⟨c', hc', rfl, rfl⟩ := compileStep_eq ht hcomp
  rw [hc] at hc'
  cases hc'
  rw [← hi.count] at hfit
  have hd : d1' (cFile p.unique) = some (.text c) := by
    rw [hk _ (by simp)]
    simp [Disk.put]
  have hlink := link_refused hs (libFile_good hgood hlib).1 hfit hd hcc
  rcases hend with ⟨d2, d2', p2, h1, _, _⟩ | ⟨d2, _, h1⟩
  · rw [hlink] at h1
    cases h1
  · exact h1

/-- **C84**, the same library again. A load that uses the library of an earlier load runs the code of the earlier one, whatever the
file contains now, even though the new text was compiled. -/
theorem C84_again_wrong {S : Sys} {l : List Event} {d : Disk} {p : Proc} (h : Run S l d p) (pre post : List Event) (e e' : Event)
    (hl : l = pre ++ e :: post) (he : e' ∈ pre) (hsame : e'.lib = e.lib) {c : Bytes} (hran : e'.out = .ran c)
    (hok : e.out ≠ .gccFailed) : e.out = .ran c := by
  obtain ⟨d, p, d1, p1, d1', hr, ht, hcomp, hlib, hk, hend⟩ := run_step h pre e post hl
  have hi := run_inv hr
  obtain ⟨c', _, _, rfl⟩ := compileStep_eq ht hcomp
  rcases hend with ⟨d2, d2', p2, _, _, h3⟩ | ⟨d2, _, h1⟩
  · have := hi.kept e' he c hran
    rw [hsame] at this
    simp only [openStep, this] at h3
    exact (congrArg Prod.snd h3).symm
  · exact absurd h1 hok

/-! ### where libraries go -/

/-- **C84**, where libraries go. The path is `$CORAPATH` or `~/.local/share/cora`, with a slash at its end. -/
theorem C84_base (env : Option Bytes) (home : Bytes) (h : env ≠ some []) :
    ∃ b, getCoraPath env home = some b ∧ b.getLast? = some 47 ∧
      ((env = none ∧ b = home ++ ascii "/.local/share/cora/") ∨ ∃ v, env = some v ∧ (b = v ∨ b = v ++ [47])) := by
  cases env with
  | none =>
    have : (home ++ ascii "/.local/share/cora/").getLast? = some 47 := by simp [ascii]
    refine ⟨home ++ ascii "/.local/share/cora/", ?_, this, .inl ⟨rfl, rfl⟩⟩
    simp [getCoraPath, this]
  | some v =>
    cases hv : v.getLast? with
    | none => rw [List.getLast?_eq_none_iff] at hv; subst hv; exact absurd rfl h
    | some c =>
      by_cases hc : c = 47
      · subst hc
        exact ⟨v, by simp [getCoraPath, hv], hv, .inr ⟨v, rfl, .inl rfl⟩⟩
      · exact ⟨v ++ [47], by simp [getCoraPath, hv, hc], by simp, .inr ⟨v, rfl, .inr rfl⟩⟩

/-- with an empty `$CORAPATH` the byte before the buffer is read -/
theorem C84_empty_variable_wrong (home : Bytes) : getCoraPath (some []) home = none := rfl

theorem lexLt_append (b : Bytes) (r : Bytes) (hr : r ≠ []) : LexLt b (b ++ r) := by
  induction b with
  | nil => cases r with
    | nil => exact absurd rfl hr
    | cons => exact .nil ..
  | cons c b ih => exact .tail ih

/-- The library of a source file in `$CORAPATH` goes next to it, where `import` looks for it (C58). -/
theorem C84_beside {S : Sys} {n : Nat} {r : Bytes} (hlen : (S.base ++ r ++ ascii ".cora").length < 2 ^ 31) :
    libFile S n (S.base ++ r ++ ascii ".cora") = some (S.base ++ r ++ ascii ".so") := by
  refine libFile_beside ((strCmp_spec _ _ hlen ?_).2.2.mpr ?_)
  · simp only [List.length_append] at hlen; omega
  · rw [List.append_assoc]
    exact lexLt_append _ _ (by simp [ascii])

/-- Other libraries should go to /tmp; they do if the name of the file comes before `$CORAPATH` in the order of the bytes. Then every
load has a library of its own: each load runs the code compiled from the text that the file has then, in every history of up to
10^10 loads. -/
theorem C84_outside_partial {S : Sys} (hs : plainWord S.srcDir) (hlen : S.srcDir.length ≤ 200) (hbase : S.base.length < 2 ^ 31) {l : List Event} {d : Disk} {p : Proc}
    (h : Run S l d p) (hl : l.length < 10 ^ 10) (hout : ∀ e ∈ l, LexLt e.path S.base ∧ e.path.length < 2 ^ 31 ∧ GoodPath e.path) :
    (∀ pre e post, l = pre ++ e :: post → e.lib = tmpLib (pre.length + 1)) ∧
    ∀ e ∈ l, ∀ c, S.toC e.text = some c → S.cc c = true → e.out = .ran c := by
  have h1 : ∀ pre e post, l = pre ++ e :: post → e.lib = tmpLib (pre.length + 1) := by
    intro pre e post hpre
    obtain ⟨d, p, _, _, _, hr, _, _, hlib, _⟩ := run_step h pre e post hpre
    obtain ⟨a1, a2, _⟩ := hout e (by rw [hpre]; simp)
    have hn : ¬ strCmp e.path S.base > 0 := by
      have := (strCmp_spec e.path S.base a2 hbase).1.mpr a1
      omega
    rw [libFile_tmp hn, (run_inv hr).count] at hlib
    exact (Option.some.inj hlib).symm
  refine ⟨h1, fun e he c hc hcc => ?_⟩
  obtain ⟨pre, post, hpre⟩ := List.append_of_mem he
  refine C84_runs_text_partial hs h pre post e hpre (hout e he).2.2 ?_ ?_ hc hcc
  · rw [h1 pre e post hpre]
    have hd : (Reader.decDigits (pre.length + 1)).length ≤ 10 := by
      refine Reader.decDigits_length _ 10 (by omega) ?_
      have := congrArg List.length hpre
      simp only [List.length_append, List.length_cons] at this
      omega
    have : (whole S (pre.length + 1) (tmpLib (pre.length + 1))).length =
        80 + 2 * S.srcDir.length + 2 * (Reader.decDigits (pre.length + 1)).length := by
      simp only [whole, tmpLib, cFile, List.length_append, ascii, List.length_map]
      have e1 : "gcc -shared -I".toList.length = 14 := rfl
      have e2 : " -g -fPIC ".toList.length = 10 := rfl
      have e3 : "/tmp/cora-xxx-".toList.length = 14 := rfl
      have e4 : ".c".toList.length = 2 := rfl
      have e5 : " -o ".toList.length = 4 := rfl
      have e6 : ".so".toList.length = 3 := rfl
      have e7 : " -ldl -lm -L".toList.length = 12 := rfl
      have e8 : " -lcora".toList.length = 7 := rfl
      omega
    omega
  · intro e' he' heq
    obtain ⟨q, q', hq⟩ := List.append_of_mem he'
    have a := h1 q e' (q' ++ e :: post) (by rw [hpre, hq]; simp)
    rw [heq, h1 pre e post hpre] at a
    have := tmpLib_inj a
    have := congrArg List.length hq
    simp only [List.length_append, List.length_cons] at this
    omega

/-- A file outside of `$CORAPATH` whose name comes after it in the order of the bytes also gets its library next to it. -/
theorem C84_outside_wrong : ∃ (S : Sys) (path : Bytes), ¬ S.base <+: path ∧ libFile S 1 path = some (ascii "/home/u/x.so") :=
  ⟨⟨ascii "/home/a/cora/", [], some, fun _ => true, []⟩, ascii "/home/u/x.cora", by decide, by decide +kernel⟩

/-- A file in the current directory, given by its name alone, is compiled, but its library is looked for in the directories of the
dynamic linker: it is not found even though it is there. -/
theorem C84_no_slash_wrong {S : Sys} {n : Nat} {stem : Bytes} (hb : S.base.head? = some 47) (h47 : 47 ∉ stem) (hfirst : ∃ c r, stem = c :: r ∧ 47 < c.toNat ∧ c.toNat < 128) :
    libFile S n (stem ++ ascii ".cora") = some (stem ++ ascii ".so") ∧
    ∀ (d : Disk) (p : Proc), p.handles.lookup (stem ++ ascii ".so") = none →
      (∀ dir ∈ S.search, ∀ c, d (dir ++ 47 :: (stem ++ ascii ".so")) ≠ some (.lib c)) →
      openStep S d p (stem ++ ascii ".so") = (p, .notFound) := by
  refine ⟨libFile_beside ?_, fun d p hp hd => ?_⟩
  · obtain ⟨c, r, rfl, h1, h2⟩ := hfirst
    cases hbase : S.base with
    | nil => rw [hbase] at hb; cases hb
    | cons b t =>
      rw [hbase] at hb
      cases hb
      have hc : charVal c > charVal 47 := by
        have e1 : charVal 47 = 47 := rfl
        rw [e1]
        unfold charVal
        split <;> omega
      simp only [strCmp, List.cons_append, strCmpLoop, if_pos hc]
      decide
  · have hn : (stem ++ ascii ".so").contains 47 = false := by
      rw [Bool.eq_false_iff, ne_eq, List.contains_iff_mem, List.mem_append, not_or]
      exact ⟨h47, by decide⟩
    have hf : findLib S d (stem ++ ascii ".so") = none := by
      unfold findLib
      simp only [hn, Bool.false_eq_true, if_false, List.findSome?_map]
      rw [List.findSome?_eq_none_iff]
      intro dir hdir
      simp only [Function.comp_apply]
      split
      · rename_i c hc
        exact absurd hc (hd dir hdir c)
      · rfl
    simp only [openStep, hp, hf]

/-! ### the command goes wrong -/

theorem shellWords_blank (cur l : Bytes) (hc : 32 ∉ cur) : ∀ w ∈ shellWords cur l, 32 ∉ w := by
  induction l generalizing cur with
  | nil =>
    intro w hw
    rw [shellWords] at hw
    split at hw
    · cases hw
    · rw [List.mem_singleton] at hw; subst hw; exact hc
  | cons c l ih =>
    intro w hw
    rw [shellWords] at hw
    split at hw
    · split at hw
      · exact ih [] (by simp) w hw
      · rcases List.mem_cons.mp hw with rfl | hw
        · exact hc
        · exact ih [] (by simp) w hw
    · rename_i hne
      exact ih (cur ++ [c]) (by simp [hc, Ne.symm hne]) w hw

theorem gccArgs_mem : ∀ {l : List Bytes} {ins out}, gccArgs l = some (ins, some out) → out ∈ l
  | [], _, _, h => by simp [gccArgs] at h
  | w :: r, ins, out, h => by
    rw [gccArgs.eq_def] at h
    simp only at h
    split at h
    · cases r with
      | nil => simp at h
      | cons o r =>
        simp only [Option.map_eq_some_iff, Prod.mk.injEq, Option.some.injEq] at h
        obtain ⟨⟨i, x⟩, h1, _, h3⟩ := h
        cases x with
        | none => simp only [Option.getD_none] at h3; simp [h3]
        | some x =>
          simp only [Option.getD_some] at h3
          have := gccArgs_mem h1
          simp [← h3, this]
    · split at h
      · exact List.mem_cons_of_mem _ (gccArgs_mem h)
      · simp only [Option.map_eq_some_iff, Prod.mk.injEq] at h
        obtain ⟨⟨i, x⟩, h1, _, h3⟩ := h
        simp only at h3
        subst h3
        exact List.mem_cons_of_mem _ (gccArgs_mem h1)

/-- gcc writes no other file than the one after `-o`, or a.out -/
theorem linkStep_other {S : Sys} {d : Disk} {n : Nat} {lib x : Bytes} (ha : x ≠ ascii "a.out")
    (h : x ∉ (shellWords [] (command S n lib)).tail) : (linkStep S d n lib).1 x = d x := by
  unfold linkStep
  split
  · rename_i g args hw
    rw [hw, List.tail_cons] at h
    split
    · split
      · rename_i d' hg
        unfold gcc at hg
        split at hg
        · rename_i i ins out hargs
          split at hg
          · split at hg
            · cases hg
              have : x ≠ out.getD (ascii "a.out") := by
                cases out with
                | none => exact ha
                | some o => rintro rfl; exact h (gccArgs_mem hargs)
              simp [Disk.put, this]
            · cases hg
          · cases hg
        · cases hg
      · rfl
    · rfl
  · rfl

/-- If the name of the library has a blank, gcc does not write it, whatever it writes instead. -/
theorem C84_blank_wrong (S : Sys) (d : Disk) (n : Nat) (lib : Bytes) (h : 32 ∈ lib) : (linkStep S d n lib).1 lib = d lib := by
  refine linkStep_other (by rintro rfl; revert h; decide) fun hm => ?_
  exact shellWords_blank [] _ (by simp) lib (List.mem_of_mem_tail hm) h

/-- the command up to the name of the library -/
def before (S : Sys) (n : Nat) : Bytes := ascii "gcc -shared -I" ++ S.srcDir ++ ascii " -g -fPIC " ++ cFile n ++ ascii " -o "

theorem shellWords_length (cur l : Bytes) : ∀ w ∈ shellWords cur l, w.length ≤ cur.length + l.length := by
  induction l generalizing cur with
  | nil =>
    intro w hw
    rw [shellWords] at hw
    split at hw
    · cases hw
    · rw [List.mem_singleton] at hw; subst hw; simp
  | cons c l ih =>
    intro w hw
    rw [shellWords] at hw
    split at hw
    · split at hw
      · have := ih [] w hw; simp at this ⊢; omega
      · rcases List.mem_cons.mp hw with rfl | hw
        · simp
        · have := ih [] w hw; simp at this ⊢; omega
    · have := ih (cur ++ [c]) w hw
      simp at this ⊢
      omega

/-- If the name of the library does not fit into the buffer, gcc does not write it: it writes a file with a shorter name. -/
theorem C84_long_wrong (S : Sys) (hs : plainWord S.srcDir) (d : Disk) (n : Nat) (lib : Bytes) (hl : plainWord lib)
    (hk : (before S n).length < 511) (h : 511 < (before S n).length + lib.length) (hsrc : S.srcDir.length + 2 < lib.length) (hcf : (cFile n).length < lib.length) :
    (linkStep S d n lib).1 lib = d lib := by
  have hb : before S n = Os.cmdListStr ((wordsOf S n lib).take 7) := by
    simp [before, wordsOf, Os.cmdListStr, ascii]
  have hcmd : command S n lib = (before S n ++ lib).take 511 := by
    have : whole S n lib = before S n ++ lib ++ (ascii " -ldl -lm -L" ++ S.srcDir ++ ascii " -lcora") := by simp [whole, before]
    show (whole S n lib).take 511 = _
    rw [this, List.take_append_of_le_length (by rw [List.length_append]; omega)]
  have hplain : ∀ w ∈ (wordsOf S n lib).take 7, plainWord w := fun w hw => wordsOf_plain hs hl w (List.mem_of_mem_take hw)
  have h6 : 6 < lib.length := by
    have : 16 ≤ (cFile n).length := by simp [cFile, ascii]
    omega
  refine linkStep_other (by rintro rfl; exact absurd h6 (by decide)) fun hm => ?_
  have hm := List.mem_of_mem_tail hm
  have short : ∀ w ∈ (wordsOf S n lib).take 7, w.length < lib.length := by
    intro w hw
    simp only [wordsOf, List.take_succ_cons, List.take_zero, List.mem_cons, List.not_mem_nil, or_false] at hw
    rcases hw with rfl | rfl | rfl | rfl | rfl | rfl | rfl
    · exact Nat.lt_of_le_of_lt (by decide) h6
    · have : 16 ≤ (cFile n).length := by simp [cFile, ascii]
      exact Nat.lt_of_le_of_lt (show (ascii "-shared").length ≤ 7 by decide) (by omega)
    · have e : (ascii "-I").length = 2 := by decide
      rw [List.length_append, e]; omega
    · exact Nat.lt_of_le_of_lt (by decide) h6
    · exact Nat.lt_of_le_of_lt (by decide) h6
    · exact hcf
    · exact Nat.lt_of_le_of_lt (by decide) h6
  · rw [hcmd, List.take_append, List.take_of_length_le (by omega), hb] at hm
    generalize hj : 511 - List.length (Os.cmdListStr ((wordsOf S n lib).take 7)) = j at hm
    rw [← hb] at hj
    have hlt : lib.take j ≠ [] := by
      intro h0
      rcases List.take_eq_nil_iff.mp h0 with h0 | h0
      · omega
      · exact hl.1 h0
    rw [words_all hplain ⟨hlt, fun c hc => hl.2 c (List.mem_of_mem_take hc)⟩] at hm
    rcases List.mem_append.mp hm with hm | hm
    · exact absurd rfl (Nat.ne_of_lt (short lib hm))
    · rw [List.mem_singleton] at hm
      have := congrArg List.length hm
      rw [List.length_take_of_le (by omega)] at this
      omega

/-! ### two processes -/

/-- Two processes that have made the same number of loads use the same C file. If the second compiles its file between the first's
compilation and its gcc, the first runs the code of the second's file. -/
theorem C84_two_processes_wrong {S : Sys} (hs : plainWord S.srcDir) {d d1 d2 : Disk} {p p1 q q1 : Proc} (hpq : p.unique = q.unique)
    {path path' lib t' c' : Bytes} (hp : GoodPath path) (h1 : compileStep S d p path = some (d1, p1)) (ht' : d1 path' = some (.text t'))
    (hc' : S.toC t' = some c') (hcc : S.cc c' = true) (h2 : compileStep S d1 q path' = some (d2, q1))
    (hlib : libFile S p.unique path = some lib) (hfit : (whole S p.unique lib).length ≤ 511) (hnew : p.handles.lookup lib = none) :
    ∃ d3, linkStep S d2 p.unique lib = (d3, true) ∧ (openStep S d3 p1 lib).2 = .ran c' := by
  obtain ⟨hl1, hl2⟩ := libFile_good hp hlib
  obtain ⟨c2, hc2, rfl, rfl⟩ := compileStep_eq ht' h2
  rw [hc'] at hc2
  cases hc2
  refine ⟨_, link_ok hs hl1 hfit (by rw [← hpq]; simp [Disk.put]) hcc, ?_⟩
  have : p1.handles = p.handles := by
    unfold compileStep at h1
    split at h1
    · simp only [Option.map_eq_some_iff, Prod.mk.injEq] at h1
      obtain ⟨_, _, _, rfl⟩ := h1
      rfl
    · cases h1
  rw [open_new (by rw [this]; exact hnew) hl2 (c := c') (by simp [Disk.put])]

/-! ### an example -/

/-- packages in /home/u/cora/, the sources of the system in /src; the compiler puts a letter in front -/
def someSys : Sys := ⟨ascii "/home/u/cora/", ascii "/src", fun t => some (99 :: t), fun _ => true, [ascii "/lib"]⟩

/-- two files: one outside of `$CORAPATH` before it, one in it -/
def fileA : Bytes := ascii "/home/a.cora"
def fileB : Bytes := ascii "/home/u/cora/pkg/b.cora"
def disk0 (x : Bytes) : Disk := fun q => if q = fileA then some (.text x) else if q = fileB then some (.text x) else none

theorem fileA_good : GoodPath fileA := ⟨⟨by decide, by decide⟩, ascii "/home/a", by decide, by decide⟩
theorem fileB_good : GoodPath fileB := ⟨⟨by decide, by decide⟩, ascii "/home/u/cora/pkg/b", by decide, by decide⟩

/-- one load from a disk with the files -/
theorem some_load {l : List Event} {d : Disk} {p : Proc} (h : Run someSys l d p) (path lib x : Bytes) (hx : disk0 x path = some (.text x))
    (hg : GoodPath path) (hlib : libFile someSys p.unique path = some lib) (hfit : (whole someSys p.unique lib).length ≤ 511) :
    ∃ d' p', Run someSys (l ++ [⟨path, x, lib, (openStep someSys ((disk0 x).put (cFile p.unique) (.text (99 :: x)) |>.put lib (.lib (99 :: x))) { p with unique := p.unique + 1 } lib).2⟩]) d' p' ∧
      p' = (openStep someSys ((disk0 x).put (cFile p.unique) (.text (99 :: x)) |>.put lib (.lib (99 :: x))) { p with unique := p.unique + 1 } lib).1 := by
  refine ⟨_, _, Run.load (d1' := (disk0 x).put (cFile p.unique) (.text (99 :: x))) (p1 := { p with unique := p.unique + 1 })
    (h.other (disk0 x)) hx (by simp [compileStep, hx, someSys]) hlib (fun _ _ => rfl)
    (link_ok (c := 99 :: x) (by exact ⟨by decide, by decide⟩) (libFile_good hg hlib).1 hfit (by simp [Disk.put]) rfl) (fun _ _ => rfl) rfl, rfl⟩

/-- The hypotheses of `C84_runs_text_partial` and `C84_again_wrong` hold of a history of three loads: the file outside is loaded, the
package is loaded and, with another text, loaded again; the last load runs the old code. -/
example (x y : Bytes) : ∃ d p, Run someSys [⟨fileA, x, tmpLib 1, .ran (99 :: x)⟩, ⟨fileB, x, ascii "/home/u/cora/pkg/b.so", .ran (99 :: x)⟩,
    ⟨fileB, y, ascii "/home/u/cora/pkg/b.so", .ran (99 :: x)⟩] d p := by
  have fit : ∀ n, n < 10 → ∀ lib : Bytes, lib.length ≤ 100 → (whole someSys n lib).length ≤ 511 := by
    intro n hn lib hl
    have hd := Reader.decDigits_length n 1 (by omega) (by omega)
    simp only [whole, cFile, List.length_append, someSys]
    have e1 : (ascii "gcc -shared -I").length = 14 := by decide
    have e2 : (ascii " -g -fPIC ").length = 10 := by decide
    have e3 : (ascii "/tmp/cora-xxx-").length = 14 := by decide
    have e4 : (ascii ".c").length = 2 := by decide
    have e5 : (ascii " -o ").length = 4 := by decide
    have e7 : (ascii " -ldl -lm -L").length = 12 := by decide
    have e8 : (ascii " -lcora").length = 7 := by decide
    have e9 : (ascii "/src").length = 4 := by decide
    omega
  have libB : ∀ n, libFile someSys n fileB = some (ascii "/home/u/cora/pkg/b.so") := fun n =>
    libFile_beside (stem := ascii "/home/u/cora/pkg/b") (by decide +kernel)
  have hA : ∀ x, disk0 x fileA = some (.text x) := fun x => by simp [disk0]
  have hB : ∀ x, disk0 x fileB = some (.text x) := fun x => by simp [disk0]
  have t1 : tmpLib 1 = ascii "/tmp/cora-xxx-1.so" := by decide +kernel
  have c1 : ¬ strCmp fileA someSys.base > 0 := by decide +kernel
  obtain ⟨d1, p1, r1, e1⟩ := some_load (Run.start (disk0 x)) fileA (tmpLib 1) x (hA x) fileA_good (libFile_tmp c1)
    (fit _ (by decide) _ (by rw [t1]; decide))
  rw [open_new (c := 99 :: x) rfl (by rw [t1]; decide) (by simp [Disk.put])] at r1 e1
  subst e1
  obtain ⟨d2, p2, r2, e2⟩ := some_load r1 fileB (ascii "/home/u/cora/pkg/b.so") x (hB x) fileB_good (libB _)
    (fit _ (by show 2 < 10; decide) _ (by decide))
  rw [open_new (c := 99 :: x) (by simp [t1, Proc.start]; decide) (by decide) (by simp [Disk.put])] at r2 e2
  subst e2
  obtain ⟨d3, p3, r3, e3⟩ := some_load r2 fileB (ascii "/home/u/cora/pkg/b.so") y (hB y) fileB_good (libB _)
    (fit _ (by show 3 < 10; decide) _ (by decide))
  simp only [openStep, List.lookup_cons_self] at r3
  exact ⟨_, _, r3⟩

/-- the hypotheses of `C84_two_processes_wrong` hold of two processes that have just started -/
example (x : Bytes) : ∃ d1 p1 d2 q1, compileStep someSys (disk0 x) .start fileA = some (d1, p1) ∧
    d1 fileB = some (.text x) ∧ compileStep someSys d1 .start fileB = some (d2, q1) := by
  have h : fileB ≠ cFile 1 := by decide +kernel
  have hb : (disk0 x).put (cFile 1) (.text (99 :: x)) fileB = some (.text x) := by simp [Disk.put, h, disk0]
  have ha : disk0 x fileA = some (.text x) := by simp [disk0]
  refine ⟨(disk0 x).put (cFile 1) (.text (99 :: x)), ⟨2, []⟩, ((disk0 x).put (cFile 1) (.text (99 :: x))).put (cFile 1) (.text (99 :: x)),
    ⟨2, []⟩, ?_, hb, ?_⟩
  · simp only [compileStep, ha, someSys, Option.map_some]
    rfl
  · simp only [compileStep, hb, someSys, Option.map_some]
    rfl

/-- the hypotheses of `C84_refused_partial` hold of a load when the C compiler takes nothing -/
example (x : Bytes) : ∃ d p, Run { someSys with cc := fun _ => false } [⟨fileB, x, ascii "/home/u/cora/pkg/b.so", .gccFailed⟩] d p := by
  have hB : disk0 x fileB = some (.text x) := by simp [disk0]
  have hlib : libFile { someSys with cc := fun _ => false } 1 fileB = some (ascii "/home/u/cora/pkg/b.so") :=
    libFile_beside (stem := ascii "/home/u/cora/pkg/b") (by decide +kernel)
  have hfit : (whole { someSys with cc := fun _ => false } 1 (ascii "/home/u/cora/pkg/b.so")).length ≤ 511 := by decide +kernel
  refine ⟨_, _, Run.fail (l := []) (d1 := (disk0 x).put (cFile 1) (.text (99 :: x))) (p1 := ⟨2, []⟩) (Run.start (disk0 x)) hB
    (by simp only [compileStep, hB, someSys, Option.map_some]; rfl) hlib (fun _ _ => rfl)
    (link_refused (c := 99 :: x) ⟨by decide, by decide⟩ ⟨by decide, by decide⟩ hfit (by simp [Disk.put, Proc.start]) rfl)⟩

end Cora.Load
