import Verif.Lemmas.CodeMachine
import Verif.Lemmas.CodeCollect
import Verif.Props.CompileRun
/-
C77: the C files that the compiler writes are C programs that do what the program says.
-/
open Spec.Lang Spec.C Spec.Compiled
namespace Cora.Compile
variable {W : Type}

/-- what is asked of a form for its C file: `k` and `k'` are the counter of `gensym` before and after compiling, `g` has the names of
symbols and the table of symbols -/
structure ForC (g : Gen) (k k' : Nat) (e : Core) : Prop where
  /-- the symbols that `gensym` makes are new -/
  fresh : Below k e.syms
  /-- no variable is named like a primitive -/
  names : NoPrims e.binders
  /-- primitives are called with all their operands -/
  full : e.full
  /-- `let` does not shadow a variable that is in use -/
  tidy : e.tidy []
  /-- no function binds a variable twice -/
  apart : e.apart
  /-- constants can be written in C -/
  consts : e.writable
  /-- the table has the symbols that the compiler finds in the form -/
  table : g.globals = globalsOf [] e []
  /-- their names can be written in a C string -/
  entries : ∀ d ∈ g.globals, EntryOk g d
  /-- variables have different names, which C allows and generated code does not use -/
  vars : VarsOk g (ownVars e k')

theorem ForC.fileOk {g : Gen} {k k' : Nat} {e : Core} (h : ForC g k k' e) {file : List Lam} (hc : compile e k = some (file, k')) :
    FileOk g file :=
  file_ok hc h.fresh h.names h.full h.tidy h.apart h.consts (by rw [h.table]; exact fun _ h => h) h.vars h.entries

/-- **C77**, one file. A form as described by `ForC` is compiled, and its C file is written. The C compiler takes the text, and it can
be loaded: its table has the symbols found in the form, it has a C function for each function of the compiled program, and the
entry function starts the toplevel. Each C function, called with any label, does what the function of the compiled program does: it
leaves the same machine and returns or calls the same, or both fail. -/
theorem C77_file_partial {g : Gen} {k k' : Nat} {e : Core} (h : ForC g k k' e) {lams : List Lam} (hc : compile e k = some (lams, k')) :
    ∃ text file, generateC g lams = some text ∧ readFile text = some file ∧
      file.table.map Datum.sym = globalsOf [] e [] ∧ file.bodies.length = lams.length ∧ file.start + 1 = lams.length ∧
      ∀ (O : Outside W) (u l : Nat) (s : Mach W) (lam : Lam) (body : Body), lams[l]? = some lam → file.bodies[l]? = some body →
        s.ctx.fn = .code u l → runBody O ⟨u, file.table, file.funs⟩ s body = lam.block O u s := by
  have hok := h.fileOk hc
  obtain ⟨text, ht, -⟩ := parse_file hok
  refine ⟨text, _, ht, readFile_text hok ht, ?_, by simp, ?_, ?_⟩
  · simp only
    rw [← h.table, List.map_map]
    refine (List.map_congr_left fun d hd => ?_).trans (List.map_id _)
    obtain ⟨s, rfl, _⟩ := h.entries d hd
    rfl
  · have : 0 < lams.length := List.length_pos_iff.mpr hok.nonempty
    simp only
    omega
  · intro O u l s lam body hl hb hs
    simp only [List.getElem?_map, List.getElem?_mapIdx, hl, Option.map_some, Option.some.injEq] at hb
    subst hb
    obtain ⟨hlt, _⟩ := List.getElem?_eq_some_iff.mp hl
    exact run_cBody (loaded_cFile u) O (hok.lam lam (List.mem_of_getElem? hl)) hlt hs

/-- the text is that of the C file of the form, and toplevel code has room in a frame of `n` registers -/
def CText (n : Nat) (e : Core) (text : Bytes) : Prop :=
  ∃ g k k' lams, ForC g k k' e ∧ compile e k = some (lams, k') ∧ generateC g lams = some text ∧ FitsFrame n lams

theorem loadsText_of {O : Outside W} {n : Nat} : ∀ (items : List (List Lam × Bytes × Val × World W)) {units : List (List Lam)}
    {files : List Bytes} {w : CWorld MCode W}, TextsOf units files → (∀ i ∈ items, TextOf i.1 i.2.1) →
    Loads O n units w (items.map fun i => (i.1, i.2.2)) → LoadsText O n files w (items.map (·.2))
  | [], _, _, _, _, _, _ => trivial
  | (lams, text, v, w1) :: items, units, files, w, h, hi, hl => by
    intro s hw hin
    obtain ⟨s', ⟨fuel, hf⟩, h1, h2, h3, h4, h5, h6⟩ := hl s hw hin
    have ht : TextOf lams text := hi (lams, text, v, w1) List.mem_cons_self
    have hts := h.snoc ht
    obtain ⟨g, hok, hg⟩ := ht
    refine ⟨_, s', readFile_text hok hg, ⟨fuel, ?_⟩, h1, h2, h3, h4, h5, loadsText_of items hts (fun i hi' => hi i (by simp [hi'])) h6⟩
    rw [goText_eq hts O, ← h.1]
    exact hf

/-- **C77**, from the language to the text of the files. The forms of a session are compiled, and their C files are compiled and
loaded one after the other. Then every file is taken by the C compiler, and loading it ends, with a result and with global
variables that look like those that the language defines. (As in C35: calling functions of earlier files is part of this; no global
variable changes between being evaluated as an operand and the call; builtin functions behave alike in both settings and do not
look into functions; at the beginning global variables hold data and builtin functions.) -/
theorem C77_session_partial {E : Ext W} {O : Outside W} (hA : Agree E O) (hO : Parametric O) {n : Nat}
    {w : World W} {w' : CWorld MCode W} (hw : Worlds Plain w w') (items : List (Core × Bytes × Val × World W))
    (hs : Session E w (items.map fun i => (i.1, i.2.2))) (hi : ∀ i ∈ items, CText n i.1 i.2.1) :
    LoadsText O n [] w' (items.map (·.2)) := by
  have key : ∀ items : List (Core × Bytes × Val × World W), (∀ i ∈ items, CText n i.1 i.2.1) →
      ∃ all : List (Core × List Lam × Bytes × Val × World W), all.map (fun a => (a.1, a.2.2)) = items ∧
        ∀ a ∈ all, TextOf a.2.1 a.2.2.1 ∧ ∃ k, Suited n k a.1 a.2.1 := by
    intro items
    induction items with
    | nil => exact fun _ => ⟨[], rfl, by simp⟩
    | cons i items ih =>
      intro hi
      obtain ⟨all, h1, h2⟩ := ih fun j hj => hi j (by simp [hj])
      obtain ⟨g, k, k', lams, hf, hc, hg, hroom⟩ := hi i (by simp)
      refine ⟨(i.1, lams, i.2) :: all, by simp [h1], fun a ha => ?_⟩
      rcases List.mem_cons.mp ha with rfl | ha
      · exact ⟨⟨g, hf.fileOk hc, hg⟩, k, hf.fresh, hf.names, hf.full, hf.tidy, ⟨k', hc⟩, hroom⟩
      · exact h2 a ha
  obtain ⟨all, rfl, hall⟩ := key items hi
  have := loadsText_of (O := O) (n := n) (w := w') (all.map (·.2)) textsOf_nil (fun i hi => by
    obtain ⟨a, ha, rfl⟩ := List.mem_map.mp hi
    exact (hall a ha).1) (by
    have := C35_compiled_session_partial hA hO (n := n) hw (all.map fun a => (a.1, a.2.1, a.2.2.2)) (by
      simpa only [List.map_map, Function.comp_def] using hs) (fun i hi => by
      obtain ⟨a, ha, rfl⟩ := List.mem_map.mp hi
      exact (hall a ha).2)
    simpa only [observations, List.map_map, Function.comp_def] using this)
  simpa only [List.map_map, Function.comp_def] using this

/-! ### a session -/

/-- names of symbols: those made by `gensym` have the letter x and a number -/
def someNames : Spec.Lang.Sym → Bytes
  | .named s => bytesOf s
  | .gen i => txt "x" ++ Reader.decDigits (100 + i)

/-- what the generator is given for a form -/
def someGen (e : Core) : Gen := ⟨someNames, fun _ => 0, globalsOf [] e []⟩

/-- the text of the C file of a form -/
def textOf (e : Core) (k : Nat) : Option Bytes := do
  let (lams, _) ← compile e k
  generateC (someGen e) lams

/-- a test for `Usable` -/
def usable (b : Bytes) : Bool :=
  (match b with | c :: _ => isLetter c | [] => false) && b.all isIdChar && isName b && !headers.contains b && !parts.contains b &&
    !(txt "clofun").isPrefixOf b

theorem usable_spec {b : Bytes} (h : usable b = true) : Usable b := by
  simp only [usable, Bool.and_eq_true, Bool.not_eq_true', List.all_eq_true] at h
  obtain ⟨⟨⟨⟨⟨h1, h2⟩, h3⟩, h4⟩, h5⟩, h6⟩ := h
  refine ⟨⟨?_, h2⟩, h3, by simpa using h4, by simpa using h5, ?_⟩
  · cases b with
    | nil => simp at h1
    | cons c r => exact ⟨c, r, rfl, h1⟩
  · rintro n rfl
    rw [group, ← Bool.not_eq_true, List.isPrefixOf_iff_prefix] at h6
    exact h6 ⟨_, rfl⟩

/-- a test for `VarsOk` -/
def varsOk (g : Gen) (V : List Spec.Lang.Sym) : Bool :=
  (V.all fun x => match genSym g x with | some b => usable b | none => false) &&
    V.all fun x => V.all fun y => decide (genSym g x = genSym g y → x = y)

theorem varsOk_spec {g : Gen} {V : List Spec.Lang.Sym} (h : varsOk g V = true) : VarsOk g V := by
  simp only [varsOk, Bool.and_eq_true, List.all_eq_true, decide_eq_true_eq] at h
  refine ⟨fun x hx => ?_, h.2⟩
  have := h.1 x hx
  split at this
  · rename_i b hb
    exact ⟨b, hb, usable_spec this⟩
  · simp at this

/-- a test for the entries of the table -/
def entryOk : Datum → Bool
  | .sym (.named s) => decide ((bytesOf s).length < 255 ∧ (0 : UInt8) ∉ bytesOf s ∧ (34 : UInt8) ∉ bytesOf s ∧ (92 : UInt8) ∉ bytesOf s ∧
      (10 : UInt8) ∉ bytesOf s)
  | _ => false

theorem entryOk_spec {e : Core} {gl : List Datum} (h : gl.all entryOk = true) : ∀ d ∈ gl, EntryOk (someGen e) d := by
  rw [List.all_eq_true] at h
  intro d hd
  have := h d hd
  unfold entryOk at this
  split at this
  · exact ⟨_, rfl, rfl, of_decide_eq_true this⟩
  · simp at this

theorem forC1 : ForC (someGen form1) 0 2 form1 where
  fresh := suited1.fresh
  names := suited1.names
  full := suited1.full
  tidy := suited1.tidy
  apart := by simp [form1, Core.apart, Core.aparts]
  consts := by simp [form1, Core.writable, Core.writables, Datum.writable]
  table := rfl
  entries := entryOk_spec (by decide +kernel)
  vars := varsOk_spec (by decide +kernel)

theorem forC2 : ForC (someGen form2) 5 9 form2 where
  fresh := suited2.fresh
  names := suited2.names
  full := suited2.full
  tidy := suited2.tidy
  apart := by simp [form2, Core.apart, Core.aparts, Core.lets, Core.letss]
  consts := by simp [form2, Core.writable, Core.writables, Datum.writable, Const.datum]
  table := rfl
  entries := entryOk_spec (by decide +kernel)
  vars := varsOk_spec (by decide +kernel)

theorem compiled1 : compile form1 0 = some (file1, 2) := rfl
theorem compiled2 : compile form2 5 = some (file2, 9) := rfl

/-- the hypotheses of both theorems hold of the session of C35: two files, with functions that call their argument, a call
with a continuation that needs a local variable, an `if` and global variables -/
example : ∃ text1 text2, textOf form1 0 = some text1 ∧ textOf form2 5 = some text2 ∧
    LoadsText someOutside 3 [] someCWorld
      [(text1, twiceFn, someWorld.set (.named "twice") twiceFn),
       (text2, .int 6, { someWorld.set (.named "twice") twiceFn with rest := [1, 5, 5] })] := by
  obtain ⟨text1, _, ht1, -⟩ := C77_file_partial (W := List Int) forC1 compiled1
  obtain ⟨text2, _, ht2, -⟩ := C77_file_partial (W := List Int) forC2 compiled2
  refine ⟨text1, text2, ht1, ht2, ?_⟩
  exact C77_session_partial some_agree some_parametric someWorld_plain
    [(form1, text1, twiceFn, someWorld.set (.named "twice") twiceFn),
     (form2, text2, .int 6, { someWorld.set (.named "twice") twiceFn with rest := [1, 5, 5] })] some_session (by
      intro i hi
      simp only [List.mem_cons, List.not_mem_nil, or_false] at hi
      rcases hi with rfl | rfl
      · exact ⟨_, _, _, _, forC1, compiled1, ht1, suited1.room⟩
      · exact ⟨_, _, _, _, forC2, compiled2, ht2, suited2.room⟩)

/-! ### where the C file is wrong

Each of these forms has a value in the language, and the compiled program has it too. -/

/-- the form has a value, and the machine that runs the compiled program finds it -/
def HasValue (e : Core) (n : Int) : Prop := (∃ w1, Eval someExt [] someWorld e (.int n) w1) ∧ loaded e = some (.int n)

/-- a C file is written, but the C compiler does not take it -/
def RefusedC (e : Core) : Prop := (textOf e 0).map (fun text => (readFile text).isNone) = some true

/-- the result of loading the C file of a form -/
def loadedText (e : Core) : Option MVal := do
  let text ← textOf e 0
  let file ← readFile text
  (goText someOutside [text] 60 (someMach.loadSo 0 file.start) none).map (·.res)

/-- symbols -/
def asSym : MVal → Option Spec.Lang.Sym
  | .sym x => some x
  | _ => none

/-- A `let` with the name of a parameter declares a C variable twice in the same block:
`((lambda (x) (let x (+ x 1) x)) 7)` -/
theorem C77_let_parameter_wrong : ∃ e, HasValue e 8 ∧ RefusedC e :=
  ⟨.app (.lam [.named "x"] (.bind (.named "x") (.app (v! "+") [v! "x", n! 1]) (v! "x"))) [n! 7],
    ⟨⟨_, evalF_sound 20 rfl⟩, rfl⟩, by unfold RefusedC; decide +kernel⟩

/-- the same for two `let`s one after the other: `(do (let a 1 a) (let a 2 a))` -/
theorem C77_let_twice_wrong : ∃ e, HasValue e 2 ∧ RefusedC e :=
  ⟨.seq (.bind (.named "a") (n! 1) (v! "a")) (.bind (.named "a") (n! 2) (v! "a")),
    ⟨⟨_, evalF_sound 20 rfl⟩, rfl⟩, by unfold RefusedC; decide +kernel⟩

/-- in a branch of an `if`, `(let x x ...)` is `Obj x = x;`, which reads the new variable, not the parameter; it has no value -/
theorem C77_let_itself_wrong : ∃ e, HasValue e 7 ∧ (textOf e 0).isSome = true ∧ (loadedText e).isNone = true :=
  ⟨.app (.lam [.named "x"] (.ite (.lit (.bool true)) (.bind (.named "x") (v! "x") (v! "x")) (n! 1))) [n! 7],
    ⟨⟨_, evalF_sound 20 rfl⟩, rfl⟩, by decide +kernel, by decide +kernel⟩

/-- a variable with the name of a C keyword: `((lambda (int) int) 1)` -/
theorem C77_keyword_wrong : ∃ e, HasValue e 1 ∧ RefusedC e :=
  ⟨.app (.lam [.named "int"] (v! "int")) [n! 1], ⟨⟨_, evalF_sound 20 rfl⟩, rfl⟩, by unfold RefusedC; decide +kernel⟩

/-- a variable with the name of a parameter of generated functions: `((lambda (co) co) 1)`; what is in `co` then is used as the
machine -/
theorem C77_machine_variable_wrong : ∃ e, HasValue e 1 ∧ (textOf e 0).isSome = true ∧ (loadedText e).isNone = true :=
  ⟨.app (.lam [.named "co"] (v! "co")) [n! 1], ⟨⟨_, evalF_sound 20 rfl⟩, rfl⟩, by decide +kernel, by decide +kernel⟩

/-- two variables whose names are the same in C: `((lambda (1a v1a) v1a) 1 2)` -/
theorem C77_same_name_wrong : ∃ e, HasValue e 2 ∧ RefusedC e :=
  ⟨.app (.lam [.named "1a", .named "v1a"] (v! "v1a")) [n! 1, n! 2],
    ⟨⟨_, evalF_sound 20 rfl⟩, rfl⟩, by unfold RefusedC; decide +kernel⟩

/-- a variable `_args` is written like the array of a call with many arguments:
`((lambda (_args) ((lambda (a b c d e) e) 1 2 3 4 _args)) 9)` -/
theorem C77_args_array_wrong : ∃ e, HasValue e 9 ∧ RefusedC e :=
  ⟨.app (.lam [.named "_args"] (.app (.lam [.named "a", .named "b", .named "c", .named "d", .named "e"] (v! "e"))
      [n! 1, n! 2, n! 3, n! 4, v! "_args"])) [n! 9],
    ⟨⟨_, evalF_sound 20 rfl⟩, rfl⟩, by unfold RefusedC; decide +kernel⟩

/-- a quoted number goes into the table of symbols, and the compiler fails when it writes the table: `'5` -/
theorem C77_quoted_number_wrong : ∃ e, HasValue e 5 ∧ (textOf e 0).isNone = true :=
  ⟨.quote (.int 5), ⟨⟨_, evalF_sound 20 rfl⟩, rfl⟩, by decide +kernel⟩

/-- the same for a quoted list: `(do '(1) 2)` -/
theorem C77_quoted_list_wrong : ∃ e, HasValue e 2 ∧ (textOf e 0).isNone = true :=
  ⟨.seq (.quote (.cons (.int 1) .nil)) (n! 2), ⟨⟨_, evalF_sound 20 rfl⟩, rfl⟩, by decide +kernel⟩

/-- a symbol whose name has a double quote: `(do 'a"b 2)` -/
theorem C77_symbol_quote_wrong : ∃ e, HasValue e 2 ∧ RefusedC e :=
  ⟨.seq (.quote (.sym (.named "a\"b"))) (n! 2), ⟨⟨_, evalF_sound 20 rfl⟩, rfl⟩, by unfold RefusedC; decide +kernel⟩

/-- a symbol whose name has a backslash is another symbol in the C file: the symbol of the four characters a, backslash, n, b becomes
that of a, newline, b -/
theorem C77_symbol_backslash_wrong : ∃ e, (∃ w1, Eval someExt [] someWorld e (.sym (.named "a\\nb")) w1) ∧
    loaded e = some (.sym (.named "a\\nb")) ∧ (loadedText e).bind asSym = some (.named "a\nb") :=
  ⟨.quote (.sym (.named "a\\nb")), ⟨_, evalF_sound 20 rfl⟩, rfl, by decide +kernel⟩

end Cora.Compile
