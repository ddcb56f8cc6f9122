import Verif.Lemmas.Toc
import Verif.Props.Code
/-
C78: from the text of a source file to what its C file does.
-/
open Spec Spec.Lang Spec.Compiled
namespace Cora.Toc
open Macro Compile

variable {T : Setting} {mt : Macros} {K k k1 : Nat}

/-- Compiling is set up: types are not checked, and after the packages `imps` were imported the macros known are `mt`: those of
init.cora and more, but `import` is none. (`k` and `k1` count the generated symbols.) -/
structure Ready (T : Setting) (imps : List String) (k : Nat) (mt : Macros) (k1 : Nat) : Prop where
  check : T.check = false
  known : T.known imps k = some (mt, k1)
  std : Std mt
  noImport : mt.fn (.named "import") = none

theorem topExpansions_ok {ds : List Datum} {ts : List Top} (h : TopExpansions mt K ds ts) : ∀ t ∈ ts, Top.ok mt t := by
  induction h with
  | nil => simp
  | cons h1 _ ih =>
    obtain ⟨_, _, _, h1⟩ := h1
    intro t ht
    rcases List.mem_cons.mp ht with rfl | ht
    · exact h1.ok
    · exact ih t ht

/-- **C78**, packages. A file has the text of a package, in any layout and with any comments; forms of the package may be notes for
the type checker. Then its program is: the imports, the list of exported names, and the forms of the package without the notes, each
expanded, with all names resolved as in C45. The packages in the header are imported before the forms are expanded. -/
theorem C78_package_partial {path : String} {header : List Header} {noted : List Datum} (hr : Ready T (headerImports header) k mt k1)
    (hk : K ≤ k1) {src : Bytes} (hsrc : IsText src [packageWith path header noted])
    (hes : (headerExports header []).head? ≠ some (.named "unquote")) (hplain : PlainStart noted) (hbody : NoHeader (withoutNotes noted))
    (hexp : ∀ d ∈ withoutNotes noted, TopExpandable mt K d) :
    ∃ tops t ts k2, TopExpansions mt K (withoutNotes noted) tops ∧
      t :: ts = (headerImports header).map importTop ++ exportTop (headerExports header []) :: tops ∧
      ∃ N, ∀ n, N ≤ n → program T n src k = some (resolveTops mt.ex path ("cora/init" :: headerImports header) t ts, k2) := by
  obtain ⟨tops, t, ts, k2, h1, h2, N1, h3⟩ := C45_package_header hr.std hr.noImport path header hes _ hbody hexp k1 hk
  obtain ⟨N2, h4⟩ := read_text hsrc
  refine ⟨tops, t, ts, k2, h1, h2, max N1 N2, fun n hn => ?_⟩
  have h4 := h4 n (by omega)
  simp only at h4
  have h5 : handleImports (packageWith path header noted) = some (headerImports header) := by
    simp only [packageWith, List.cons_append, Datum.list]
    rw [handleImports]
    exact handleImports_header hplain header
  have hall : ∀ x ∈ t :: ts, Top.ok mt x := by
    rw [h2]
    intro x hx
    simp only [List.mem_append, List.mem_map, List.mem_cons] at hx
    rcases hx with ⟨p, _, rfl⟩ | rfl | hx
    · exact (import_turns hr.std hr.noImport p 0).ok
    · exact (turns_define (x := .named "*ns-export*") hr.std (export_turns hr.std _ hes 0)).ok
    · exact topExpansions_ok h1 x hx
  have h6 : formOf (resolveTops mt.ex path ("cora/init" :: headerImports header) t ts).form =
      some (resolveTops mt.ex path ("cora/init" :: headerImports header) t ts) :=
    formOf_form _ (ok_resolveTops mt.ex path ts t _ (hall t (by simp)) fun x hx => hall x (by simp [hx]))
  unfold program expanded
  obtain ⟨s, hs, hs'⟩ := Option.bind_eq_some_iff.mp h4
  simp [hs, hs', h5, hr.known, hr.check, splitTop_package path header hplain, h3 n (by omega), h6]

theorem withoutNotes_header (hs : List Header) (ds : List Datum) :
    withoutNotes (hs.map Header.form ++ ds) = hs.map Header.form ++ withoutNotes ds := by
  induction hs with
  | nil => rfl
  | cons h hs ih =>
    have : (h.form).isNote = false := by cases h <;> rfl
    simp only [List.map_cons, List.cons_append]
    rw [← ih]
    simp [withoutNotes, this]

/-- the program of forms one after the other -/
theorem expand_begin (hs : Std mt) {d : Datum} {ds : List Datum} (h : ∀ x ∈ d :: ds, TopExpandable mt K x) (hk : K ≤ k1) :
    ∃ t ts k2, TopExpansions mt K (d :: ds) (t :: ts) ∧ (∀ x ∈ t :: ts, Top.ok mt x) ∧
      ∃ N, ∀ n, N ≤ n → macroexpand mt n (.list (kw "begin" :: d :: ds)) k1 = some ((resolveTops mt.ex "" [] t ts).form, k2) := by
  obtain ⟨t, ts, k2, r, _, x, ok, oks⟩ := doForm_tops hs ds d (h d (by simp)) (fun y hy => h y (by simp [hy])) k1 hk
  refine ⟨t, ts, k2, x, by simpa using ⟨ok, oks⟩, ?_⟩
  have hbegin : Runs mt (.cons (kw "begin") (.list (d :: ds))) k1 (doTops t ts) k2 := by
    refine runs_macro (e1 := doForm d ds) (k1 := k1) (hs.plain (by decide) (by decide)) (hs.std "begin" _ rfl)
      ⟨0, fun n _ => by
        have := rewriteBegin_list d ds
        simp [cdr, this, liftM, monadLift, MonadLift.monadLift, StateT.lift]⟩ ?_ r
    cases ds with
    | nil =>
      intro he
      have := congrArg sizeOf he
      simp [doForm, Datum.list] at this
      omega
    | cons => simp [doForm, Datum.list, kw]
  obtain ⟨N, hN⟩ := hbegin
  refine ⟨N + 1, fun n hn => ?_⟩
  obtain ⟨m, rfl⟩ : ∃ m, n = m + 1 := ⟨n - 1, by omega⟩
  rw [macroexpand, Datum.list]
  simp [bind, StateT.bind, hN m (by omega), nsParse_tops (mt := mt) ts t [] ok oks, liftM, monadLift, MonadLift.monadLift,
    StateT.lift]

/-- **C78**, files of several forms outside of packages. The program is: the forms without the notes, each expanded, with all names
resolved. The packages imported at the start of the file are imported before the forms are expanded. -/
theorem C78_forms_partial {imps : List String} {noted : List Datum} (hr : Ready T imps k mt k1) (hk : K ≤ k1) {src : Bytes}
    (hsrc : IsText src ((imps.map fun p => .list [kw "import", .str p]) ++ noted)) (htwo : 2 ≤ imps.length + noted.length)
    (hplain : PlainStart noted) (hsome : 0 < imps.length + (withoutNotes noted).length)
    (hexp : ∀ d ∈ withoutNotes noted, TopExpandable mt K d) :
    ∃ t ts k2, TopExpansions mt K ((imps.map fun p => .list [kw "import", .str p]) ++ withoutNotes noted) (t :: ts) ∧
      ∃ N, ∀ n, N ≤ n → program T n src k = some (resolveTops mt.ex "" [] t ts, k2) := by
  have hform : ∀ l : List Datum, (imps.map fun p => Datum.list [kw "import", .str p]) ++ l = (imps.map Header.import_).map Header.form ++ l := by
    intro l; rw [List.map_map]; rfl
  have himps : ∀ l : List String, headerImports (l.map .import_) = l := by
    intro l
    induction l with
    | nil => rfl
    | cons p l ih => simp [headerImports, ih]
  rw [hform] at hsrc ⊢
  have hlen : 0 < ((imps.map Header.import_).map Header.form ++ withoutNotes noted).length := by simpa using hsome
  obtain ⟨d, ds, hd⟩ : ∃ d ds, (imps.map Header.import_).map Header.form ++ withoutNotes noted = d :: ds := by
    cases h : (imps.map Header.import_).map Header.form ++ withoutNotes noted with
    | nil => rw [h] at hlen; simp at hlen
    | cons d ds => exact ⟨d, ds, rfl⟩
  have hall : ∀ x ∈ d :: ds, TopExpandable mt K x := by
    rw [← hd]
    intro x hx
    simp only [List.mem_append, List.mem_map] at hx
    rcases hx with ⟨_, ⟨p, _, rfl⟩, rfl⟩ | hx
    · exact fun k _ => ⟨_, _, import_turns hr.std hr.noImport p k⟩
    · exact hexp x hx
  obtain ⟨t, ts, k2, h1, h2, N1, h3⟩ := expand_begin hr.std hall hk
  obtain ⟨N2, h4⟩ := read_text hsrc
  rw [hd]
  refine ⟨t, ts, k2, h1, max N1 N2, fun n hn => ?_⟩
  have h4 := h4 n (by omega)
  have h5 := handleImports_header hplain (imps.map .import_)
  rw [himps] at h5
  have h6 := splitTop_begin (imps.map .import_) hplain
  have h7 := formOf_form _ (ok_resolveTops mt.ex "" ts t [] (h2 t (by simp)) fun x hx => h2 x (by simp [hx]))
  rw [List.cons_append, List.cons_append, hd] at h6
  have hlen : 2 ≤ ((imps.map Header.import_).map Header.form ++ noted).length := by simpa using htwo
  generalize (imps.map Header.import_).map Header.form ++ noted = all at h4 h5 h6 hlen
  match all, hlen, h4 with
  | d1 :: d2 :: r, _, h4 =>
    simp only at h4
    have h8 : handleImports (.list (kw "begin" :: d1 :: d2 :: r)) = some imps := by rw [Datum.list, handleImports, h5]
    unfold program expanded
    obtain ⟨s, hs, hs'⟩ := Option.bind_eq_some_iff.mp h4
    simp [hs, hs', h8, hr.known, hr.check, h6, h3 n (by omega), h7]

/-- **C78**, files of one form that is no package -/
theorem C78_form_partial {d : Datum} (hr : Ready T [] k mt k1) (hk : K ≤ k1) {src : Bytes} (hsrc : IsText src [d])
    (hplain : ∀ h r, d = .cons h r → PlainStart [h]) (hnote : d.isNote = false) (hexp : TopExpandable mt K d) :
    ∃ t k2, TopExpansions mt K [d] [t] ∧ ∃ N, ∀ n, N ≤ n → program T n src k = some (t.resolve mt.ex "" [], k2) := by
  obtain ⟨t, ts, k2, h1, h2, N1, h3⟩ := expand_begin (d := d) (ds := []) hr.std (by simpa using hexp) hk
  obtain ⟨N2, h4⟩ := read_text hsrc
  have hts : ts = [] := by cases h1 with | cons _ h => cases h; rfl
  subst hts
  refine ⟨t, k2, h1, max N1 N2, fun n hn => ?_⟩
  have h4 := h4 n (by omega)
  simp only at h4
  have hp : ∀ h r, d = .cons h r → (∀ r, h ≠ .cons (kw "import") r ∧ h ≠ .cons (kw "export") r) ∧ h ≠ kw "begin" ∧ h ≠ kw "package" :=
    fun h r e => hplain h r e h rfl
  have h5 : handleImports d = some [] := by
    unfold handleImports
    split
    · exact absurd rfl (hp _ _ rfl).2.2
    · exact absurd rfl (hp _ _ rfl).2.1
    · exact absurd rfl ((hp _ _ rfl).1 _).2
    · exact absurd rfl ((hp _ _ rfl).1 _).1
    · rfl
  have h6 : splitTop false d = some (.list [kw "begin", d]) := by
    have hs := split_code [d]
    have : withoutNotes [d] = [d] := by simp [withoutNotes, hnote]
    rw [this] at hs
    unfold splitTop
    split
    · exact absurd rfl (hp _ _ rfl).2.2
    · exact absurd rfl (hp _ _ rfl).2.1
    · obtain ⟨p, hp1, hp2⟩ := Option.map_eq_some_iff.mp hs
      rw [hp1, Option.map_some, hp2]
      rfl
  have h7 := formOf_form _ (ok_resolveTops mt.ex "" [] t [] (h2 t (by simp)) (by simp))
  simp only [resolveTops] at h3 h7
  unfold program expanded
  obtain ⟨s, hs, hs'⟩ := Option.bind_eq_some_iff.mp h4
  simp [hs, hs', h5, hr.known, hr.check, h6, h3 n (by omega), h7]

/-! ### notes -/

/-- what comes of a package depends on its text only through its header and its forms without the notes -/
theorem program_package (hc : T.check = false) {path : String} {header : List Header} {noted : List Datum} {src : Bytes}
    (hsrc : IsText src [packageWith path header noted]) (hplain : PlainStart noted) :
    ∃ N, ∀ n, N ≤ n → ∀ k, program T n src k = (do
      let (mt, k1) ← T.known (headerImports header) k
      let (d, k2) ← macroexpand mt n (packageWith path header (withoutNotes noted)) k1
      some (← formOf d, k2)) := by
  obtain ⟨N, h4⟩ := read_text hsrc
  refine ⟨N, fun n hn k => ?_⟩
  have h4 := h4 n (by omega)
  simp only at h4
  have h5 : handleImports (packageWith path header noted) = some (headerImports header) := by
    simp only [packageWith, List.cons_append, Datum.list]
    rw [handleImports]
    exact handleImports_header hplain header
  unfold program expanded
  obtain ⟨s, hs, hs'⟩ := Option.bind_eq_some_iff.mp h4
  simp only [hs, hs', h5, hc, splitTop_package path header hplain, Option.bind_eq_bind, Option.bind_some, Option.bind_assoc]

/-- **C78**, notes. Two files with the text of the same package but for layout, comments and notes in the body give the same C file
(or neither gives one). -/
theorem C78_notes (hc : T.check = false) {path : String} {header : List Header} {noted noted' : List Datum} {src src' : Bytes}
    (hsrc : IsText src [packageWith path header noted]) (hsrc' : IsText src' [packageWith path header noted'])
    (hplain : PlainStart noted) (hplain' : PlainStart noted') (h : withoutNotes noted = withoutNotes noted') :
    ∃ N, ∀ n, N ≤ n → ∀ k, compileToC T n src k = compileToC T n src' k := by
  obtain ⟨N, h1⟩ := program_package hc hsrc hplain
  obtain ⟨N', h2⟩ := program_package hc hsrc' hplain'
  refine ⟨max N N', fun n hn k => ?_⟩
  have : program T n src (k + 1) = program T n src' (k + 1) := by
    rw [h1 n (by omega), h2 n (by omega), h]
  simp only [compileToC, this]

/-! ### what the C file does -/

/-- what the generator of C is given for a program -/
def genFor (T : Setting) (e : Core) : Gen := ⟨T.nm, T.junk, globalsOf [] e []⟩

/-- **C78**, the C file. If the program of a file is as C77 asks, its C file is written, is taken by the C compiler, and has
a C function for each function of the compiled program. -/
theorem C78_file_partial {n : Nat} {src : Bytes} {e : Core} {k k2 k3 : Nat} (hp : program T n src (k + 1) = some (e, k2))
    {lams : List Lam} (hc : compile e k2 = some (lams, k3)) (hf : ForC (genFor T e) k2 k3 e) :
    ∃ text file, compileToC T n src k = some (text, k3) ∧ generateC (genFor T e) lams = some text ∧ readFile text = some file ∧
      file.bodies.length = lams.length := by
  obtain ⟨text, file, h1, h2, _, h3, _⟩ := C77_file_partial (W := Unit) hf hc
  refine ⟨text, file, ?_, h1, h2, h3⟩
  unfold genFor at h1
  simp [compileToC, hp, hc, h1]

/-- `src` is the text of a source file with the program `e`, which is as C77 asks and has room in a frame of `r` registers;
`text` is its C file -/
structure CFileOf (T : Setting) (r : Nat) (src : Bytes) (e : Core) (text : Bytes) : Prop where
  file : ∃ n k k2 k3 lams, program T n src (k + 1) = some (e, k2) ∧ compile e k2 = some (lams, k3) ∧
    ForC (genFor T e) k2 k3 e ∧ FitsFrame r lams ∧ compileToC T n src k = some (text, k3)

/-- **C78**, from source files to what loading their C files does. The files of a session are compiled, and their C files are compiled
and loaded one after the other. Then loading each ends, with a result and with global variables that look like those that the
language defines for the program of its source file. (The conditions are those of C77.) -/
theorem C78_session_partial {W : Type} {E : Ext W} {O : Outside W} (hA : Agree E O) (hO : Parametric O) {r : Nat}
    {w : World W} {w' : CWorld MCode W} (hw : Worlds Spec.Compiled.Plain w w') (items : List (Bytes × Core × Bytes × Val × World W))
    (hs : Session E w (items.map fun i => (i.2.1, i.2.2.2))) (hi : ∀ i ∈ items, CFileOf T r i.1 i.2.1 i.2.2.1) :
    LoadsText O r [] w' (items.map (·.2.2)) := by
  have := C77_session_partial hA hO (n := r) hw (items.map (·.2)) (by simpa only [List.map_map, Function.comp_def] using hs) (by
    intro i hi'
    obtain ⟨j, hj, rfl⟩ := List.mem_map.mp hi'
    obtain ⟨n, k, k2, k3, lams, hp, hc, hf, hfit, ht⟩ := (hi j hj).file
    obtain ⟨text, file, h1, h2, _⟩ := C78_file_partial hp hc hf
    rw [h1] at ht
    simp only [Option.some.injEq, Prod.mk.injEq, and_true] at ht
    subst ht
    exact ⟨_, _, _, _, hf, hc, h2, hfit⟩)
  simpa only [List.map_map, Function.comp_def] using this

/-! ### an example -/

/-- two source files. The first is a package with a comment and a note, the second has a note and an expression. -/
def src1 : Bytes := ascii "; composing a function with itself
(package \"p\" (export twice)
  (:type twice ((a -> a) -> (a -> a)))
  (def twice (lambda (f) (lambda (a) (f (f a))))))
"
def src2 : Bytes := ascii "(:declare log (int -> int))
(let b (p#twice log 5)
  (+ b x)) ; 6
"

/-- the macros of init.cora, whatever is imported -/
def someSetting : Setting := ⟨fun _ k => some (initMacros, k), false, someNames, fun _ => 0⟩

/-- their programs -/
def prog1 : Core := .seq (set! "p#*ns-export*" (.app (v! "cons") [.quote (kw "twice"), .lit .nil]))
  (set! "p#twice" (.lam [.named "f"] (.lam [.named "a"] (.app (v! "f") [.app (v! "f") [v! "a"]]))))
def prog2 : Core := .bind (.named "b") (.app (v! "p#twice") [v! "log", n! 5]) (.app (v! "+") [v! "b", v! "x"])

theorem program_of {n k k2 : Nat} {src : Bytes} {e : Core} (h : expanded T n src k = some (e.form, k2))
    (hok : okCore (· ∈ keywords) e) : program T n src k = some (e, k2) := by
  simp [program, h, formOf_form e hok]

theorem program1 : program someSetting 100 src1 1 = some (prog1, 1) :=
  program_of (by decide +kernel) (by simp [prog1, okCore, okCores, keywords])
theorem program2 : program someSetting 100 src2 1 = some (prog2, 1) :=
  program_of (by decide +kernel) (by simp [prog2, okCore, okCores, keywords])

theorem progForC1 : ForC (genFor someSetting prog1) 1 5 prog1 where
  fresh := by intro n hn; simp [prog1, Core.syms, Core.symss] at hn
  names := by simp [prog1, NoPrims, Core.binders, Core.binderss, Sym.isPrim, primArity]
  full := by simp [prog1, Core.full, Core.fulls, fullCall, primArity]
  tidy := by simp [prog1, Core.tidy, Core.tidys, Core.lets, Core.letss]
  apart := by simp [prog1, Core.apart, Core.aparts, Core.lets, Core.letss]
  consts := by simp [prog1, Core.writable, Core.writables, Datum.writable, Const.datum]
  table := rfl
  entries := entryOk_spec (by decide +kernel)
  vars := varsOk_spec (by decide +kernel)

theorem progForC2 : ForC (genFor someSetting prog2) 1 3 prog2 where
  fresh := by intro n hn; simp [prog2, Core.syms, Core.symss] at hn
  names := by simp [prog2, NoPrims, Core.binders, Core.binderss, Sym.isPrim, primArity]
  full := by simp [prog2, Core.full, Core.fulls, fullCall, primArity]
  tidy := by simp [prog2, Core.tidy, Core.tidys, Core.lets, Core.letss]
  apart := by simp [prog2, Core.apart, Core.aparts, Core.lets, Core.letss]
  consts := by simp [prog2, Core.writable, Core.writables, Datum.writable, Const.datum]
  table := rfl
  entries := entryOk_spec (by decide +kernel)
  vars := varsOk_spec (by decide +kernel)

def lams1 : List Lam := ((compile prog1 1).map (·.1)).getD []
def lams2 : List Lam := ((compile prog2 1).map (·.1)).getD []
theorem progCompiled1 : compile prog1 1 = some (lams1, 5) := rfl
theorem progCompiled2 : compile prog2 1 = some (lams2, 3) := rfl

/-- the world after the first file -/
def world1 : World (List Int) :=
  (someWorld.set (.named "p#*ns-export*") (.cons (.sym (.named "twice")) .nil)).set (.named "p#twice") twiceFn

theorem prog_session : Session someExt someWorld [(prog1, twiceFn, world1), (prog2, .int 6, { world1 with rest := [5, 5] })] := by
  apply XSession.cons (o := .now twiceFn)
  · sev
  apply XSession.cons (o := .now (.int 6))
  · sev
  exact .nil _

/-- the hypotheses of the theorems about C files hold of the two source files: they are compiled, and their C files, loaded one after
the other, leave the function `p#twice`, log 5 twice and give 6 -/
example : ∃ text1 text2, compileToC someSetting 100 src1 0 = some (text1, 5) ∧ compileToC someSetting 100 src2 0 = some (text2, 3) ∧
    LoadsText someOutside 3 [] someCWorld [(text1, twiceFn, world1), (text2, .int 6, { world1 with rest := [5, 5] })] := by
  obtain ⟨text1, _, h1, -⟩ := C78_file_partial program1 progCompiled1 progForC1
  obtain ⟨text2, _, h2, -⟩ := C78_file_partial program2 progCompiled2 progForC2
  refine ⟨text1, text2, h1, h2, ?_⟩
  exact C78_session_partial (T := someSetting) some_agree some_parametric someWorld_plain
    [(src1, prog1, text1, twiceFn, world1), (src2, prog2, text2, .int 6, { world1 with rest := [5, 5] })] prog_session (by
      have c1 : CFileOf someSetting 3 src1 prog1 text1 := ⟨⟨100, 0, 1, 5, lams1, program1, progCompiled1, progForC1, fitsFrame_of rfl, h1⟩⟩
      have c2 : CFileOf someSetting 3 src2 prog2 text2 := ⟨⟨100, 0, 1, 3, lams2, program2, progCompiled2, progForC2, fitsFrame_of rfl, h2⟩⟩
      intro i hi
      rcases List.mem_cons.mp hi with h | hi
      · rw [h]; dsimp only; exact c1
      rcases List.mem_cons.mp hi with h | hi
      · rw [h]; dsimp only; exact c2
      · cases hi)

/-- a comment, then a printed form -/
theorem isText_printed {d : Datum} {s : Sexp} (hs : d.sexp = some s) (hp : Printable s) :
    ∃ t, Reader.printObj s = some t ∧ IsText (ascii "; text\n" ++ t ++ [10]) [d] := by
  obtain ⟨⟨t, k, e, x⟩, -⟩ := Reader.print_text s hp
  have hw : Blanks (ascii "; text\n") := Blanks.comment (body := ascii " text") (r := []) (by decide) .nil
  exact ⟨t, e, [s], .form (.blank hw x) (by intro _ c r e; cases e; simp [IsDelim, IsBlank])
    (.done (.blank (.inr ⟨by decide, by decide⟩) .nil)), by simp [hs]⟩

/-- a test for `SymName` -/
def symName (n : Bytes) : Bool :=
  !n.isEmpty && n.all (fun c => !(c = 32 || (9 ≤ c.toNat && c.toNat ≤ 13)) && ![0, 40, 41, 34, 39, 96, 44, 59, 91, 93].contains c) &&
    (match n with | c :: r => !(48 ≤ c.toNat && c.toNat ≤ 57) && c != 255 && (c != 45 || r.isEmpty) | [] => false) &&
    n != ascii "true" && n != ascii "false"

theorem symName_spec {n : Bytes} (h : symName n = true) : SymName n := by
  simp only [symName, Bool.and_eq_true, bne_iff_ne, ne_eq] at h
  obtain ⟨⟨⟨⟨h1, h2⟩, h3⟩, h4⟩, h5⟩ := h
  rw [List.all_eq_true] at h2
  refine ⟨by cases n <;> simp_all, fun c hc => ?_, fun c r e => ?_, h4, h5, fun r e => ?_⟩
  · have := h2 c hc
    simp only [Bool.and_eq_true, Bool.not_eq_true', Bool.or_eq_false_iff, List.contains_eq_mem, List.mem_cons, List.not_mem_nil,
      or_false, decide_eq_false_iff_not, not_or, Bool.and_eq_false_iff] at this
    unfold IsDelim IsBlank
    grind
  · subst e
    simp only [Bool.and_eq_true, Bool.not_eq_true', bne_iff_ne, ne_eq, Bool.and_eq_false_iff, decide_eq_false_iff_not] at h3
    refine ⟨?_, h3.1.2⟩
    unfold IsDigit
    grind
  · subst e
    simp at h3
    exact .inl h3

/-- a test for `Printable` -/
def printable : Sexp → Bool
  | .int n => decide (-(2 : Int) ^ 31 ≤ n ∧ n < 2 ^ 31)
  | .bool _ => true
  | .nil => true
  | .sym n => symName n && decide (n.length ≤ 254)
  | .str b => b.all (fun c => decide (c ≠ 34 ∧ c ≠ 92 ∧ c ≠ 0)) && decide (b.length ≤ 511)
  | .cons a d => printable a && printable d && d.isList

theorem printable_spec : ∀ {s : Sexp}, printable s = true → Printable s
  | .int n, h => by
    simp only [printable, decide_eq_true_eq] at h
    exact h
  | .bool _, _ => trivial
  | .nil, _ => trivial
  | .sym n, h => by
    simp only [printable, Bool.and_eq_true, decide_eq_true_eq] at h
    exact ⟨symName_spec h.1, h.2⟩
  | .str b, h => by
    simp only [printable, Bool.and_eq_true, List.all_eq_true, decide_eq_true_eq] at h
    exact h
  | .cons a d, h => by
    simp only [printable, Bool.and_eq_true] at h
    exact ⟨printable_spec h.1.1, printable_spec h.1.2, h.2⟩

/-- a form that is a list whose first element is neither a list nor one of two names -/
theorem plain_of {s : String} {d : Datum} {ds : List Datum} : PlainStart (.cons (kw s) d :: ds) ↔ s ≠ "import" ∧ s ≠ "export" := by
  constructor
  · intro h
    have := (h _ rfl).1 d
    simpa [kw] using this
  · rintro ⟨h1, h2⟩ x hx
    simp only [List.head?_cons, Option.some.injEq] at hx
    subst hx
    simp [kw, h1, h2]

/-- the package of the example, as data -/
def noted1 : List Datum := [.list [kw ":type", kw "f", kw "int"], .list [kw "def", kw "f", kw "x"], setG.form]

/-- the hypotheses of `C78_package_partial` hold of a text with a comment, a note, imports, a definition and an expression -/
example : ∃ src : Bytes, ∃ tops t ts k2, TopExpansions initMacros 1 (withoutNotes noted1) tops ∧
    t :: ts = [importTop "a", exportTop [.named "f"]] ++ tops ∧
    ∃ N, ∀ n, N ≤ n → program someSetting n src 1 = some (resolveTops (fun _ => []) "p" ["cora/init", "a"] t ts, k2) := by
  obtain ⟨src, -, hsrc⟩ := isText_printed (d := packageWith "p" [.import_ "a", .export_ [.named "f"]] noted1) (s := _) rfl
    (printable_spec (by decide +kernel))
  exact ⟨_, C78_package_partial (T := someSetting) (mt := initMacros) (k1 := 1) ⟨rfl, rfl, initMacros_std, rfl⟩ (Nat.le_refl 1) hsrc
    (by simp [headerExports]) (plain_of.mpr ⟨by decide, by decide⟩) (by
      intro h t e r; simp [noted1, withoutNotes, Datum.isNote, Datum.list] at e; obtain ⟨rfl, _⟩ := e; simp [kw]) (by
      simp only [noted1, withoutNotes, Datum.isNote, Datum.list]
      intro d hd
      simp [setG, Core.form, Datum.list] at hd
      rcases hd with rfl | rfl
      · exact top_define initMacros_std (x_expandable 1)
      · exact top_expr (setG_expandable 1))⟩

/-! ### where the C file is wrong -/

/-- builtin functions that return 0 -/
def zeroExt : Ext Unit := ⟨fun _ _ _ => none, fun _ _ w => some (.int 0, w)⟩

/-- `import` and the function `f` of package `m` -/
def zeroWorld : World Unit :=
  { globals := fun x => if x = .named "cora/init#import" ∨ x = .named "m#f" then some (.native 0 1) else none, rest := () }

/-- package `m` exports `f`, which is known once `m` was imported -/
def mSetting : Setting :=
  ⟨fun imps k => some ({ initMacros with
    ex := fun p => if p = "cora/init" then [.named "import"] else if p = "m" ∧ "m" ∈ imps then [.named "f"] else [] }, k),
    false, someNames, fun _ => 0⟩

/-- the file has a program and it has a value -/
def Runs (T : Setting) (src : Bytes) : Prop := ∃ e k2 v w, program T 100 src 1 = some (e, k2) ∧ Eval zeroExt [] zeroWorld e v w

/-- the file has a program, but it has no value -/
def Stuck (T : Setting) (src : Bytes) : Prop := ∃ e k2, program T 100 src 1 = some (e, k2) ∧ ∀ v w, ¬ Eval zeroExt [] zeroWorld e v w

theorem no_call {W : Type} {E : Ext W} {w w' : World W} {x : String} {args : List Core} {v : Val} (hp : primArity x = none)
    (hg : w.globals (.named x) = none) : ¬ Eval E [] w (.app (v! x) args) v w' := by
  intro h
  cases h with
  | prim _ _ _ _ p vs _ w1 _ h1 _ _ => simp [Core.primOf, hp] at h1
  | app _ _ _ _ g vs _ w1 w2 _ _ h2 _ _ =>
    cases h2 with
    | «local» _ _ _ _ h => simp [find] at h
    | «global» _ _ _ _ _ h => rw [hg] at h; cases h

/-- after a form that has a value -/
theorem no_seq {W : Type} {E : Ext W} {w w' : World W} {a b : Core} {v : Val} {n : Nat} {u : Val} {w1 : World W}
    (ha : evalF E n [] w a = some (u, w1)) (hb : ∀ w', ¬ Eval E [] w1 b v w') : ¬ Eval E [] w (.seq a b) v w' := by
  intro h
  cases h with
  | seq _ _ _ _ _ _ w2 _ h1 h2 =>
    obtain ⟨-, rfl⟩ := eval_det (evalF_sound n ha) h1
    exact hb _ h2

theorem no_seq_left {W : Type} {E : Ext W} {w w' : World W} {a b : Core} {v : Val} (h : ∀ u w1, ¬ Eval E [] w a u w1) :
    ¬ Eval E [] w (.seq a b) v w' := by
  intro h'
  cases h' with
  | seq _ _ _ _ _ _ _ _ h1 _ => exact h _ _ h1

theorem no_set {W : Type} {E : Ext W} {w w' : World W} {x : String} {e : Core} {v : Val} (h : ∀ u w1, ¬ Eval E [] w e u w1) :
    ¬ Eval E [] w (set! x e) v w' := by
  intro h'
  have args : ∀ vs w0 w1, ¬ EvalArgs E [] w0 [.quote (kw x), e] vs w1 ∨ w0 ≠ w := by
    intro vs w0 w1
    by_cases hw : w0 = w
    · left
      subst hw
      intro ha
      cases ha with
      | cons _ _ _ _ _ _ _ _ h1 h2 =>
        cases h1
        cases h2 with
        | cons _ _ _ _ _ _ _ _ h3 _ => exact h _ _ h3
    · exact .inr hw
  cases h' with
  | prim _ _ _ _ p vs _ w1 _ _ h2 _ => rcases args vs w w1 with h | h <;> simp_all
  | app _ _ _ _ g vs _ w1 w2 _ h1 h2 h3 _ => simp [Core.primOf, find, primArity] at h1

/-- In a file of several forms, notes inside of a package are not notes: they are called as functions. -/
theorem C78_note_in_package_wrong : Stuck mSetting (ascii "(package \"p\" (:type f int) (def f 1)) (def y 2)") ∧
    Runs mSetting (ascii "(package \"p\" (def f 1)) (def y 2)") := by
  refine ⟨⟨.seq (.seq (set! "p#*ns-export*" (.lit .nil)) (.seq (.app (v! "p#:type") [v! "p#f", v! "p#int"]) (set! "p#f" (n! 1))))
    (set! "y" (n! 2)), 1, program_of (by decide +kernel) (by simp [okCore, okCores, keywords]), fun v w => ?_⟩,
    .seq (.seq (set! "p#*ns-export*" (.lit .nil)) (set! "p#f" (n! 1))) (set! "y" (n! 2)), 1, _, _,
    program_of (by decide +kernel) (by simp [okCore, okCores, keywords]), evalF_sound 20 rfl⟩
  refine no_seq_left fun _ _ => no_seq (n := 20) rfl fun _ => no_seq_left fun _ _ => no_call (by decide) (by decide)

/-- A package that is imported after other forms is not imported while compiling, so the names it exports are not known. -/
theorem C78_late_import_wrong : Stuck mSetting (ascii "(package \"p\" (def x 1) (import \"m\") (def y (f x)))") ∧
    Runs mSetting (ascii "(package \"p\" (import \"m\") (def x 1) (def y (f x)))") := by
  refine ⟨⟨.seq (set! "p#*ns-export*" (.lit .nil)) (.seq (set! "p#x" (n! 1)) (.seq (.app (v! "cora/init#import") [.lit (.str "m")])
    (set! "p#y" (.app (v! "p#f") [v! "p#x"])))), 1, program_of (by decide +kernel) (by simp [okCore, okCores, keywords]), fun v w => ?_⟩,
    .seq (.app (v! "cora/init#import") [.lit (.str "m")]) (.seq (set! "p#*ns-export*" (.lit .nil)) (.seq (set! "p#x" (n! 1))
    (set! "p#y" (.app (v! "m#f") [v! "p#x"])))), 1, _, _,
    program_of (by decide +kernel) (by simp [okCore, okCores, keywords]), evalF_sound 20 rfl⟩
  refine no_seq (n := 20) rfl fun _ => no_seq (n := 20) rfl fun _ => no_seq (n := 20) rfl fun _ => no_set fun _ _ =>
    no_call (by decide) (by decide)

/-- The same if the file has forms besides the package, even if the import comes first in the package. -/
theorem C78_second_form_wrong : Stuck mSetting (ascii "(package \"p\" (import \"m\") (def y (f 1))) (def z 2)") ∧
    Runs mSetting (ascii "(package \"p\" (import \"m\") (def y (f 1)))") := by
  refine ⟨⟨.seq (.seq (.app (v! "cora/init#import") [.lit (.str "m")]) (.seq (set! "p#*ns-export*" (.lit .nil))
    (set! "p#y" (.app (v! "p#f") [n! 1])))) (set! "z" (n! 2)), 1, program_of (by decide +kernel) (by simp [okCore, okCores, keywords]),
    fun v w => ?_⟩,
    .seq (.app (v! "cora/init#import") [.lit (.str "m")]) (.seq (set! "p#*ns-export*" (.lit .nil))
    (set! "p#y" (.app (v! "m#f") [n! 1]))), 1, _, _, program_of (by decide +kernel) (by simp [okCore, okCores, keywords]),
    evalF_sound 20 rfl⟩
  refine no_seq_left fun _ _ => no_seq (n := 20) rfl fun _ => no_seq (n := 20) rfl fun _ => no_set fun _ _ =>
    no_call (by decide) (by decide)

/-- A file with nothing but a note has no program: `(begin)` is an error. -/
theorem C78_only_note_wrong {d : Datum} (hc : T.check = false) (hd : d.isNote = true) {src : Bytes} (hsrc : IsText src [d])
    (hk : ∀ imps k mt k1, T.known imps k = some (mt, k1) → Std mt) : ∃ N, ∀ n, N ≤ n → ∀ k, program T n src k = none := by
  obtain ⟨N, h4⟩ := read_text hsrc
  refine ⟨N, fun n hn k => ?_⟩
  have h4 := h4 n hn
  simp only at h4
  obtain ⟨s, hs, hs'⟩ := Option.bind_eq_some_iff.mp h4
  have h6 : splitTop false d = some (.list [kw "begin"]) := by
    have hs := split_code [d]
    have : withoutNotes [d] = [] := by simp [withoutNotes, hd]
    rw [this] at hs
    unfold splitTop
    split
    · simp [Datum.isNote] at hd
    · simp [Datum.isNote] at hd
    · obtain ⟨p, hp1, hp2⟩ := Option.map_eq_some_iff.mp hs
      rw [hp1, Option.map_some, hp2]
      rfl
  have hx : ∀ mt k, Std mt → macroexpand mt n (.list [kw "begin"]) k = none := by
    intro mt k hm
    match n with
    | 0 => rw [macroexpand]; rfl
    | 1 => rw [macroexpand, expandBoot]; rfl
    | m + 2 =>
      have hf := hm.std "begin" _ rfl
      have hp : (kw "begin" : Datum) ≠ .sym mt.protect := by rw [hm.protect]; simp
      rw [macroexpand, Datum.list, expandBoot]
      simp [hf, hp, kw, Datum.list, cdr, rewriteBegin, bind, StateT.bind, liftM, monadLift, MonadLift.monadLift, StateT.lift]
  unfold program expanded
  rw [hs, hc]
  simp only [hs', h6, Option.bind_eq_bind, Option.bind_some]
  cases hi : handleImports d with
  | none => rfl
  | some imps =>
    cases hkn : T.known imps k with
    | none => simp [hkn]
    | some p => simp [hkn, hx p.1 p.2 (hk imps k p.1 p.2 hkn)]

end Cora.Toc
