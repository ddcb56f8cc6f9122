import Verif.Lemmas.Boot
import Verif.Lemmas.LateRun
import Verif.Lemmas.Optimised
import Verif.Props.Peval
import Verif.Props.Source
import Verif.Props.Segments
import Verif.Props.Heap
/-
C83: source files compiled as the distributed compiler does it, with partial evaluation.
-/
open Spec Spec.Lang Spec.Compiled
namespace Cora.Boot
open Compile Toc GC
variable {W : Type}

/-- A source file of a session: its text, its program, the program as it is optimised, what is made of it (the text of the C file, or
the compiled functions), and the value and the world that the language defines for its program (not for the optimised one). -/
structure Item (W X : Type) where
  src : Bytes
  prog : Core
  opt : Core
  out : X
  val : Val
  world : World W

variable {X : Type}

/-- the text, compiled with partial evaluation: the program of the text is `i.prog`, partial evaluation makes `i.opt` of it and is safe
there (C55); the optimised program is compiled to `lams` -/
structure Optimised (T : Setting) (n r : Nat) (i : Item W X) (k k2 k3 : Nat) (lams : List Lam) : Prop where
  program : program T n i.src (k + 1) = some (i.prog, k2)
  optimised : Peval.peval n [] i.prog = some i.opt
  safe : harmless n [] [] i.prog = true
  compiled : compile i.opt k2 = some (lams, k3)
  forC : ForC (Toc.genFor T i.opt) k2 k3 i.opt
  room : FitsFrame r lams

/-- what comes out is the C file -/
def OptFile (T : Setting) (n r : Nat) (i : Item W Bytes) : Prop :=
  ∃ k k2 k3 lams, Optimised T n r i k k2 k3 lams ∧ compileToC T n i.src k = some (i.out, k3)

/-- what comes out is the C file, and every function has less than 256 registers -/
def OptSegFile (T : Setting) (n r : Nat) (i : Item W Bytes) : Prop :=
  ∃ k k2 k3 lams, Optimised T n r i k k2 k3 lams ∧ SmallFrames lams ∧ compileToC T n i.src k = some (i.out, k3)

/-- what comes out are the compiled functions, and every function has less than 256 registers -/
def OptHeapFile (T : Setting) (n r : Nat) (i : Item W (List Lam)) : Prop :=
  ∃ k k2 k3, Optimised T n r i k k2 k3 i.out ∧ SmallFrames i.out

/-- **C83**, the C file. If partial evaluation of the program of a file succeeds and gives a program as C77 asks, the C file is
written, is taken by the C compiler, and has a C function for each function of the compiled program. -/
theorem C83_file_partial {T : Setting} {n r : Nat} {i : Item W X} {k k2 k3 : Nat} {lams : List Lam} (h : Optimised T n r i k k2 k3 lams) :
    ∃ text file, compileToC T n i.src k = some (text, k3) ∧ generateC (Toc.genFor T i.opt) lams = some text ∧
      readFile text = some file ∧ file.bodies.length = lams.length := by
  obtain ⟨text, file, h1, h2, _, h3, _⟩ := C77_file_partial (W := Unit) h.forC h.compiled
  refine ⟨text, file, ?_, h1, h2, h3⟩
  unfold Toc.genFor at h1
  simp [compileToC, h.program, h.optimised, h.compiled, h1]

theorem mapM_opt {n : Nat} : ∀ {l : List (Item W X)}, (∀ i ∈ l, Peval.peval n [] i.prog = some i.opt) →
    (l.map (·.prog)).mapM (Peval.peval n []) = some (l.map (·.opt))
  | [], _ => rfl
  | a :: l, h => by simp [List.mapM_cons, h a (by simp), mapM_opt (l := l) (fun j hj => h j (by simp [hj]))]

theorem zip_opt : ∀ {items : List (Item W X)} {obs : List (Core × Val × World W)}, obs.map (·.1) = items.map (·.opt) →
    (items.zip (obs.map (·.2))).map (fun p => (p.1.opt, p.2)) = obs
  | [], [], _ => rfl
  | [], _ :: _, h => by simp at h
  | _ :: _, [], h => by simp at h
  | i :: items, o :: obs, h => by
    simp only [List.map_cons, List.cons.injEq] at h
    simp [zip_opt h.2, ← h.1]

theorem zip_out : ∀ {items : List (Item W X)} {l : List (X × Val × World W)}, l.map (·.1) = items.map (·.out) →
    (items.zip (l.map (·.2))).map (fun p => (p.1.out, p.2)) = l
  | [], [], _ => rfl
  | [], _ :: _, h => by simp at h
  | _ :: _, [], h => by simp at h
  | i :: items, o :: obs, h => by
    simp only [List.map_cons, List.cons.injEq] at h
    simp [zip_out h.2, ← h.1]

/-- the expected values and worlds look like those of the optimised programs -/
theorem session_alike {E : Ext W} (hB : E.BlackBox) (hP : E.Adds) {n : Nat} {w : World W} :
    ∀ (post pre : List (Item W X)) (obs obs' : List (Core × Val × World W)), obs.map (·.1) = pre.map (·.opt) →
      obs'.map (·.1) = post.map (·.opt) → EvalSession E w (obs ++ obs') →
      EvalSession E w ((pre ++ post).map fun i => (i.prog, i.val, i.world)) →
      (∀ i ∈ pre ++ post, Peval.peval n [] i.prog = some i.opt ∧ harmless n [] [] i.prog = true) →
      ∃ l', AlikeAll (post.map fun i => (i.out, i.val, i.world)) l' ∧ l'.map (·.1) = post.map (·.out) ∧
        l'.map (·.2) = obs'.map (·.2) := by
  intro post
  induction post with
  | nil =>
    intro pre obs obs' _ h1 _ _ _
    have : obs' = [] := by simpa using h1
    subst this
    exact ⟨[], .nil, rfl, rfl⟩
  | cons i post ih =>
    intro pre obs obs' h0 h1 h2 h3 h4
    obtain ⟨o, obs', rfl⟩ : ∃ o r, obs' = o :: r := by cases obs' with | nil => simp at h1 | cons o r => exact ⟨o, r, rfl⟩
    simp only [List.map_cons, List.cons.injEq] at h1
    obtain ⟨l', a1, a2, a3⟩ := ih (pre ++ [i]) (obs ++ [o]) obs' (by simp [h0, h1.1]) h1.2 (by simpa using h2) (by simpa using h3)
      (by simpa using h4)
    have r1 := session_runs h3 (pre.map fun i => (i.prog, i.val, i.world)) (i.prog, i.val, i.world)
      (post.map fun i => (i.prog, i.val, i.world)) (by simp)
    have r2 := session_runs h2 obs o obs' rfl
    have he : (obs ++ [o]).map (·.1) = (pre ++ [i]).map (·.opt) := by simp [h0, h1.1]
    have he' : (pre.map (fun i => (i.prog, i.val, i.world)) ++ [(i.prog, i.val, i.world)]).map (·.1) = (pre ++ [i]).map (·.prog) := by simp
    rw [he] at r2
    rw [he'] at r1
    have hpre : ∀ j ∈ pre ++ [i], Peval.peval n [] j.prog = some j.opt ∧ harmless n [] [] j.prog = true :=
      fun j hj => h4 j (by simp only [List.mem_append, List.mem_cons, List.not_mem_nil, or_false] at hj ⊢; grind)
    have hp : ((pre ++ [i]).map (·.prog)).mapM (Peval.peval n []) = some ((pre ++ [i]).map (·.opt)) := by
      exact mapM_opt fun j hj => (hpre j hj).1
    have hh : ((pre ++ [i]).map (·.prog)).all (harmless n [] []) = true := by
      rw [List.all_eq_true]
      intro e he
      obtain ⟨j, hj, rfl⟩ := List.mem_map.mp he
      exact (hpre j hj).2
    obtain ⟨vs', w', b1, b2, b3⟩ := Peval.C55_harmless_session_partial E hB hP n _ _ hp hh w _ _ r1
    obtain ⟨rfl, rfl⟩ := runs_det r2 b1
    have hv : Looks i.val o.2.1 := by
      simp only [List.map_append, List.map_cons, List.map_nil] at b2
      refine looksAll_last b2 ?_
      have := congrArg List.length h0
      simpa using this.symm
    refine ⟨(i.out, o.2.1, o.2.2) :: l', .cons hv b3 a1, by simp [a2], by simp [a3]⟩

/-- the same for a whole session -/
theorem session_alike' {E : Ext W} (hB : E.BlackBox) (hP : E.Adds) {n : Nat} {w : World W} {over : Bool} (items : List (Item W X))
    (hs : EvalSession E w (items.map fun i => (i.prog, i.val, i.world)))
    (ho : ∃ obs, obs.map (·.1) = items.map (·.opt) ∧ XSession over E w obs)
    (hi : ∀ i ∈ items, Peval.peval n [] i.prog = some i.opt ∧ harmless n [] [] i.prog = true) :
    ∃ l : List (Item W X × Val × World W), l.map (·.1) = items ∧ XSession over E w (l.map fun p => (p.1.opt, p.2)) ∧
      AlikeAll (items.map fun i => (i.out, i.val, i.world)) (l.map fun p => (p.1.out, p.2)) := by
  obtain ⟨obs, h1, h2⟩ := ho
  obtain ⟨l', a1, a2, a3⟩ := session_alike hB hP (n := n) items [] [] obs rfl h1 (session_eval h2) hs hi
  have hlen : items.length = obs.length := by simpa using (congrArg List.length h1).symm
  refine ⟨items.zip (obs.map (·.2)), ?_, ?_, ?_⟩
  · exact List.map_fst_zip (by simp [hlen])
  · have : (items.zip (obs.map (·.2))).map (fun p => (p.1.opt, p.2)) = obs := by
      exact zip_opt h1
    rw [this]
    exact h2
  · have : (items.zip (obs.map (·.2))).map (fun p => (p.1.out, p.2)) = l' := by
      rw [← a3]
      exact zip_out a2
    rw [this]
    exact a1

/-- **C83**, the session. The source files of a session are compiled with partial evaluation, and their C files are compiled and
loaded one after the other. Then loading each ends, with a result and with global variables that look like those that the language
defines for the program in the source file, before it was optimised. (The conditions are those of C55 and C77, and that the optimised
programs change no global variable between its evaluation as an operand and the call.) -/
theorem C83_session_partial {T : Setting} {E : Ext W} {O : Outside W} (hA : Agree E O) (hO : Parametric O) (hB : E.BlackBox)
    (hP : E.Adds) {n r : Nat} {w : World W} {w' : CWorld MCode W} (hw : Worlds Spec.Compiled.Plain w w') (items : List (Item W Bytes))
    (hs : EvalSession E w (items.map fun i => (i.prog, i.val, i.world)))
    (ho : ∃ obs, obs.map (·.1) = items.map (·.opt) ∧ Session E w obs) (hi : ∀ i ∈ items, OptFile T n r i) :
    LoadsText O r [] w' (items.map fun i => (i.out, i.val, i.world)) := by
  obtain ⟨l, h1, h2, h3⟩ := session_alike' hB hP (n := n) items hs ho fun i hm => by
    obtain ⟨_, _, _, _, h, _⟩ := hi i hm
    exact ⟨h.optimised, h.safe⟩
  refine loadsText_alike h3 ?_
  have := C77_session_partial hA hO (n := r) hw (l.map fun p => (p.1.opt, p.1.out, p.2))
    (by simpa only [List.map_map, Function.comp_def] using h2) (by
      intro j hj
      obtain ⟨p, hp, rfl⟩ := List.mem_map.mp hj
      obtain ⟨k, k2, k3, lams, h, ht⟩ := hi p.1 (by rw [← h1]; exact List.mem_map_of_mem hp)
      obtain ⟨text, file, b1, b2, _⟩ := C83_file_partial h
      rw [b1] at ht
      simp only [Option.some.injEq, Prod.mk.injEq, and_true] at ht
      subst ht
      exact ⟨_, _, _, _, h.forC, h.compiled, b2, h.room⟩)
  simpa only [List.map_map, Function.comp_def] using this

/-- **C83**, on the stack of segments: the same for the machine of C79. If no function is called with more arguments than it takes,
every run ends. -/
theorem C83_segments_partial {T : Setting} {over : Bool} {E : Ext W} {O : Outside W} (hA : Agree E O) (hO : Parametric O)
    (hK : KeepsSane O) (hB : E.BlackBox) (hP : E.Adds) {malloc : List Nat → Nat} (hm : Fresh malloc) {n r : Nat} {w : World W}
    {w' : CWorld MCode W} (hw : Worlds Spec.Compiled.Plain w w') (hsw : SaneWorld [] w') (items : List (Item W Bytes))
    (hs : EvalSession E w (items.map fun i => (i.prog, i.val, i.world)))
    (ho : ∃ obs, obs.map (·.1) = items.map (·.opt) ∧ XSession over E w obs) (hi : ∀ i ∈ items, OptSegFile T n r i) :
    LoadsSeg (over = false) O malloc r [] w' (items.map fun i => (i.out, i.val, i.world)) := by
  obtain ⟨l, h1, h2, h3⟩ := session_alike' hB hP (n := n) items hs ho fun i hm => by
    obtain ⟨_, _, _, _, h, _⟩ := hi i hm
    exact ⟨h.optimised, h.safe⟩
  refine loadsSeg_alike h3 ?_
  have := seg_session hA hO hK hm (n := r) (l.map fun p => (p.1.opt, p.1.out, p.2)) [] [] w w' textsOf_nil
    (by intro c hc; simp at hc) (plain_start [] hw) hsw (by simpa only [List.map_map, Function.comp_def] using h2) (by
      intro j hj
      obtain ⟨p, hp, rfl⟩ := List.mem_map.mp hj
      obtain ⟨k, k2, k3, lams, h, hsmall, ht⟩ := hi p.1 (by rw [← h1]; exact List.mem_map_of_mem hp)
      obtain ⟨text, file, b1, b2, _⟩ := C83_file_partial h
      rw [b1] at ht
      simp only [Option.some.injEq, Prod.mk.injEq, and_true] at ht
      subst ht
      exact ⟨_, _, _, _, h.forC, h.compiled, b2, h.room, hsmall⟩)
  simpa only [List.map_map, Function.comp_def] using this

/-- **C83**, on the collected heap: the same for the machine of C80. -/
theorem C83_heap_partial [Layout] {T : Setting} {E : Ext W} {O : Outside W} {HO : HOutside W} (hA : Agree E O) (hO : Parametric O)
    (hK : KeepsSane O) (hI : Implements HO O) (hT : Answers HO O) (hB : E.BlackBox) (hP : E.Adds) {malloc : List Nat → Nat}
    (hm : Fresh malloc) {n r : Nat} {w : World W} {w' : CWorld MCode W} (hw : Worlds Spec.Compiled.Plain w w') (hsw : SaneWorld [] w')
    (items : List (Item W (List Lam))) (hs : EvalSession E w (items.map fun i => (i.prog, i.val, i.world)))
    (ho : ∃ obs, obs.map (·.1) = items.map (·.opt) ∧ XSession false E w obs) (hi : ∀ i ∈ items, OptHeapFile T n r i) :
    LoadsHeap O HO malloc r [] w' (items.map fun i => (i.out, i.val, i.world)) := by
  obtain ⟨l, h1, h2, h3⟩ := session_alike' hB hP (n := n) items hs ho fun i hm => by
    obtain ⟨_, _, _, h, _⟩ := hi i hm
    exact ⟨h.optimised, h.safe⟩
  refine loadsHeap_alike h3 ?_
  have := C80_heap_partial hA hO hK hI hT hm (n := r) hw hsw (l.map fun p => (p.1.opt, p.1.out, p.2))
    (by simpa only [List.map_map, Function.comp_def] using h2) (by
      intro j hj
      obtain ⟨p, hp, rfl⟩ := List.mem_map.mp hj
      obtain ⟨k, k2, k3, h, hsmall⟩ := hi p.1 (by rw [← h1]; exact List.mem_map_of_mem hp)
      exact ⟨_, _, _, h.forC, h.compiled, h.room, hsmall⟩)
  simpa only [List.map_map, Function.comp_def] using this

/-! ### an example -/

theorem looks_int {V : Val → Val → Prop} (hV : Spec.Lang.Likeness V) {u v} (h : V u v) : valInt u = valInt v := by
  cases hV.looks _ _ h <;> rfl

theorem each_arith {V : Val → Val → Prop} (hV : Spec.Lang.Likeness V) {us vs} (p : String) (h : Each V us vs) :
    arith2 valInt p us = arith2 valInt p vs ∧ one valInt us = one valInt vs := by
  cases h with
  | nil => exact ⟨rfl, rfl⟩
  | cons h1 h2 =>
    cases h2 with
    | nil => exact ⟨rfl, by simp only [one, looks_int hV h1]⟩
    | cons h3 h4 =>
      cases h4 with
      | nil => exact ⟨by simp only [arith2, looks_int hV h1, looks_int hV h3], rfl⟩
      | cons => exact ⟨rfl, rfl⟩

theorem some_blackBox : someExt.BlackBox where
  prim V hV p us us' r v r' h h1 := by
    simp only [someExt, (each_arith hV p h).1] at h1 ⊢
    obtain ⟨n, hn, h2⟩ := Option.map_eq_some_iff.mp h1
    cases h2
    exact ⟨_, by rw [hn]; rfl, (hV.int _ _).mpr rfl⟩
  native V hV id us us' w w' v w1 h hw h1 := by
    simp only [someExt, (each_arith hV "" h).2] at h1 ⊢
    obtain ⟨n, hn, h2⟩ := Option.map_eq_some_iff.mp h1
    cases h2
    exact ⟨.int n, { w' with rest := n :: w'.rest }, by rw [hn]; rfl, (hV.int _ _).mpr rfl, ⟨by simp [hw.rest], hw.unset, hw.globals⟩⟩

theorem some_adds : someExt.Adds where
  plus _ _ _ := by simp [someExt, arith2, valInt, arith]
  minus _ _ _ := by simp [someExt, arith2, valInt, arith]

/-- a source file with a function that is called at compile time -/
def src3 : Bytes := ascii "; logs 5 twice
(let g (lambda (y) (+ y 2))
  (p#twice log (g 3)))
"
/-- its program, and what partial evaluation makes of it -/
def prog3 : Core := .bind (.named "g") (.lam [.named "y"] (.app (v! "+") [v! "y", n! 2])) (.app (v! "p#twice") [v! "log", .app (v! "g") [n! 3]])
def opt3 : Core := .app (v! "p#twice") [v! "log", n! 5]
/-- the same with one call -/
def src4 : Bytes := ascii "(let g (lambda (y) (+ y 2)) (log (g 3)))"
def prog4 : Core := .bind (.named "g") (.lam [.named "y"] (.app (v! "+") [v! "y", n! 2])) (.app (v! "log") [.app (v! "g") [n! 3]])
def opt4 : Core := .app (v! "log") [n! 5]

/-- the macros of init.cora -/
abbrev bootSetting : Setting := setting initMacros

/-- tests for everything that is asked of a source file -/
theorem optimised_of {X : Type} {n r : Nat} (src : Bytes) (e e' : Core) (x : X) (v : Val) (w : World W) (k k2 k3 : Nat) (lams : List Lam)
    (hp : expanded bootSetting n src (k + 1) = some (e.form, k2)) (hok : Macro.okCore (· ∈ Toc.keywords) e)
    (ho : (Peval.peval n [] e).any (·.same e') = true) (hh : harmless n [] [] e = true) (hc : compile e' k2 = some (lams, k3))
    (hf : forCB k2 k3 e' = true) (hr : roomB r lams = true) : Optimised bootSetting n r ⟨src, e, e', x, v, w⟩ k k2 k3 lams :=
  ⟨program_of hp hok, by
    cases h : Peval.peval n [] e with
    | none => simp [h] at ho
    | some a => rw [h] at ho; rw [Core.same_eq (b := e') ho], hh, hc, forCB_spec hf, roomB_spec hr⟩

theorem optFile_of {n r : Nat} {src : Bytes} {e e' : Core} {x : Bytes} {v : Val} {w : World W} {k k2 k3 : Nat} {lams : List Lam}
    (h : Optimised bootSetting n r ⟨src, e, e', x, v, w⟩ k k2 k3 lams) (ht : compileToC bootSetting n src k = some (x, k3)) :
    OptFile bootSetting n r ⟨src, e, e', x, v, w⟩ := ⟨_, _, _, _, h, ht⟩

def optLams (e : Core) : List Lam := ((compile e 1).map (·.1)).getD []

abbrev world3 : World (List Int) := { world1 with rest := [5, 5] }
abbrev world4 : World (List Int) := { someWorld with rest := [5] }
def item1 {X : Type} (x : X) : Item (List Int) X := ⟨src1, prog1, prog1, x, twiceFn, world1⟩
def item3 {X : Type} (x : X) : Item (List Int) X := ⟨src3, prog3, opt3, x, .int 5, world3⟩
def item4 {X : Type} (x : X) : Item (List Int) X := ⟨src4, prog4, opt4, x, .int 5, world4⟩

theorem optimised1 {X : Type} (x : X) : Optimised bootSetting 100 3 (item1 x) 0 1 5 (optLams prog1) :=
  optimised_of src1 prog1 prog1 x _ _ 0 1 5 _ (by decide +kernel) (by simp [prog1, Macro.okCore, Macro.okCores, Toc.keywords]) (by decide +kernel)
    (by decide +kernel) rfl (by decide +kernel) (by decide +kernel)
theorem optimised3 {X : Type} (x : X) : Optimised bootSetting 100 3 (item3 x) 0 1 1 (optLams opt3) :=
  optimised_of src3 prog3 opt3 x _ _ 0 1 1 _ (by decide +kernel) (by simp [prog3, Macro.okCore, Macro.okCores, Toc.keywords]) (by decide +kernel)
    (by decide +kernel) rfl (by decide +kernel) (by decide +kernel)
theorem optimised4 {X : Type} (x : X) : Optimised bootSetting 100 3 (item4 x) 0 1 1 (optLams opt4) :=
  optimised_of src4 prog4 opt4 x _ _ 0 1 1 _ (by decide +kernel) (by simp [prog4, Macro.okCore, Macro.okCores, Toc.keywords]) (by decide +kernel)
    (by decide +kernel) rfl (by decide +kernel) (by decide +kernel)

theorem opt_session : Session someExt someWorld [(prog1, twiceFn, world1), (opt3, .int 5, world3)] := by
  apply XSession.cons (o := .now twiceFn)
  · sev
  apply XSession.cons (o := .now (.int 5))
  · sev
  exact .nil _
theorem src_session : Session someExt someWorld [(prog1, twiceFn, world1), (prog3, .int 5, world3)] := by
  apply XSession.cons (o := .now twiceFn)
  · sev
  apply XSession.cons (o := .now (.int 5))
  · sev
  exact .nil _
theorem opt_session4 : XSession false someExt someWorld [(opt4, .int 5, world4)] := by
  apply XSession.cons (o := .now (.int 5))
  · sev
  exact .nil _
theorem src_session4 : Session someExt someWorld [(prog4, .int 5, world4)] := by
  apply XSession.cons (o := .now (.int 5))
  · sev
  exact .nil _

/-- the hypotheses of `C83_session_partial` hold of two source files; the function of the second is not in its C file any more, since its
call was made at compile time -/
example : opt3 ≠ prog3 ∧ ∃ text1 text3, compileToC bootSetting 100 src1 0 = some (text1, 5) ∧
    compileToC bootSetting 100 src3 0 = some (text3, 1) ∧
    LoadsText someOutside 3 [] someCWorld [(text1, twiceFn, world1), (text3, .int 5, world3)] := by
  obtain ⟨text1, _, h1, -⟩ := C83_file_partial (optimised1 ())
  obtain ⟨text3, _, h3, -⟩ := C83_file_partial (optimised3 ())
  simp only [item1] at h1
  simp only [item3] at h3
  refine ⟨by simp [opt3, prog3], text1, text3, h1, h3, ?_⟩
  exact C83_session_partial (T := bootSetting) (n := 100) some_agree some_parametric some_blackBox some_adds someWorld_plain
    [item1 text1, item3 text3] (session_eval src_session) ⟨_, rfl, opt_session⟩ (by
      intro i hi
      rcases List.mem_cons.mp hi with rfl | hi
      · exact optFile_of (optimised1 _) h1
      rcases List.mem_cons.mp hi with rfl | hi
      · exact optFile_of (optimised3 _) h3
      · cases hi)

theorem some_sane : SaneWorld [] someCWorld := by
  intro x v h
  simp only [someCWorld] at h
  split at h
  · cases h; exact .native (by omega)
  split at h
  · cases h; exact .int 1
  · simp at h

/-- the hypotheses of `C83_segments_partial` hold of a source file, whose run ends -/
example : ∃ text, compileToC bootSetting 100 src4 0 = some (text, 1) ∧
    LoadsSeg True someOutside aboveAll 3 [] someCWorld [(text, .int 5, world4)] := by
  obtain ⟨text, _, h, -⟩ := C83_file_partial (optimised4 ())
  refine ⟨text, h, ?_⟩
  have := C83_segments_partial (T := bootSetting) (n := 100) some_agree some_parametric some_keeps some_blackBox some_adds aboveAll_fresh
    someWorld_plain some_sane [item4 text] (session_eval src_session4) ⟨_, rfl, opt_session4⟩ (r := 3) (by
      intro i hi
      rcases List.mem_cons.mp hi with rfl | hi
      · exact ⟨_, _, _, _, optimised4 _, smallFrames_of rfl, h⟩
      · cases hi)
  simpa only [List.map_cons, List.map_nil, item4] using this

/-- the hypotheses of `C83_heap_partial` hold of the same source file -/
example [Layout] : LoadsHeap someOutside someHOutside aboveAll 3 [] someCWorld [(optLams opt4, .int 5, world4)] :=
  C83_heap_partial (T := bootSetting) (n := 100) some_agree some_parametric some_keeps some_implements some_answers some_blackBox some_adds
    aboveAll_fresh someWorld_plain some_sane [item4 (optLams opt4)] (session_eval src_session4) ⟨_, rfl, opt_session4⟩ (by
      intro i hi
      rcases List.mem_cons.mp hi with rfl | hi
      · exact ⟨_, _, _, optimised4 _, smallFrames_of rfl⟩
      · cases hi)

end Cora.Boot
