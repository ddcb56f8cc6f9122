import Verif.Lemmas.SegRun
import Verif.Props.Source
/-
C79: compiled programs do what they mean on the runtime's stack of segments, however deep calls are nested.
-/
open Spec.Lang Spec.Compiled Spec.C
namespace Cora.Compile
open Toc
variable {W : Type}

/-- the text is that of the C file of the form, as C77 asks; every function of the file has less than 256 registers -/
def SegText (n : Nat) (e : Core) (text : Bytes) : Prop :=
  ∃ g k k' lams, ForC g k k' e ∧ compile e k = some (lams, k') ∧ generateC g lams = some text ∧ FitsFrame n lams ∧ SmallFrames lams

theorem seg_session {over : Bool} {E : Ext W} {O : Outside W} (hA : Agree E O) (hO : Parametric O) (hK : KeepsSane O)
    {malloc : List Nat → Nat} (hm : Fresh malloc) {n : Nat} : ∀ (items : List (Core × Bytes × Val × World W)) (units : List (List Lam))
    (files : List Bytes) (w : World W) (w' : CWorld MCode W), TextsOf units files → UnitsOk units → MWorld units w w' → SaneWorld units w' →
    XSession over E w (items.map fun i => (i.1, i.2.2)) → (∀ i ∈ items, SegText n i.1 i.2.1) →
    LoadsSeg (over = false) O malloc n files w' (items.map (·.2)) := by
  intro items
  induction items with
  | nil => intros; trivial
  | cons i items ih =>
    intro units files w w' hts hU hw hsw hs hi
    obtain ⟨e, text, v, w1⟩ := i
    cases hs with
    | cons h1 h2 =>
      obtain ⟨g, k, k', lams, hf, hc, hg, hroom, hsmall⟩ := hi (e, text, v, w1) (by simp)
      have hok := hf.fileOk hc
      have hts' := hts.snoc (lams := lams) (text := text) ⟨g, hok, hg⟩
      intro t htw hin
      subst htw
      obtain ⟨hU', hends, hsound⟩ := load_seg hA hO hK hm hU h1 hf.fresh hf.names hf.full hf.tidy hc hsmall t hw hsw hin hroom
      have heq : ∀ fuel t a, goSeg malloc O (textBlock O (files ++ [text])) fuel t a =
          goSeg malloc O (lamBlock O (units ++ [lams])) fuel t a :=
        goSeg_congr fun u l s hs => textBlock_eq hts' O hs
      refine ⟨_, readFile_text hok hg, fun ho => ?_, fun fuel t' hrun => ?_⟩
      · simp only [heq, ← hts.1]
        exact hends ho
      · simp only [heq, ← hts.1] at hrun
        obtain ⟨a1, a2, a3, a4, a5, a6, a7, a8, a9, a10⟩ := hsound fuel t' hrun
        exact ⟨looks_mrel a1, looks_world a2, a4, a5, a6, a7, a8, a9, a10,
          ih _ _ _ _ hts' hU' a2 a3 h2 fun i hi' => hi i (by simp [hi'])⟩

/-- **C79**, what a run gives. C files are loaded one after the other on the stack of segments. Whenever loading one ends, the result and
the global variables look like those that the language defines, the segments are those there were before, and callers find their
registers and frames unchanged. This holds wherever `malloc` puts the segments, and however deep calls are nested.
(The conditions are those of C77; moreover builtin functions take less than 255 arguments and return no broken functions, and
compiled functions have less than 256 registers.) -/
theorem C79_result_partial {E : Ext W} {O : Outside W} (hA : Agree E O) (hO : Parametric O) (hK : KeepsSane O) {malloc : List Nat → Nat}
    (hm : Fresh malloc) {n : Nat} {w : World W} {w' : CWorld MCode W} (hw : Worlds Plain w w') (hsw : SaneWorld [] w')
    (items : List (Core × Bytes × Val × World W)) (hs : Session E w (items.map fun i => (i.1, i.2.2)))
    (hi : ∀ i ∈ items, SegText n i.1 i.2.1) : LoadsSeg False O malloc n [] w' (items.map (·.2)) := by
  have := seg_session hA hO hK hm items [] [] w w' textsOf_nil (by intro c hc; simp at hc) (plain_start [] hw) hsw hs hi
  simpa only [Bool.true_eq_false] using this

/-- **C79**, that runs end. If moreover no function is called with more arguments than it takes, then loading every file ends, however
deep calls are nested: there is always room for the next call, and every return finds its segment. -/
theorem C79_ends_partial {E : Ext W} {O : Outside W} (hA : Agree E O) (hO : Parametric O) (hK : KeepsSane O) {malloc : List Nat → Nat}
    (hm : Fresh malloc) {n : Nat} {w : World W} {w' : CWorld MCode W} (hw : Worlds Plain w w') (hsw : SaneWorld [] w')
    (items : List (Core × Bytes × Val × World W)) (hs : XSession false E w (items.map fun i => (i.1, i.2.2)))
    (hi : ∀ i ∈ items, SegText n i.1 i.2.1) : LoadsSeg True O malloc n [] w' (items.map (·.2)) := by
  have := seg_session hA hO hK hm items [] [] w w' textsOf_nil (by intro c hc; simp at hc) (plain_start [] hw) hsw hs hi
  simpa only using this

/-- the text is the C file of a source file, as in C78; every function has less than 256 registers -/
structure SegFileOf (T : Setting) (r : Nat) (src : Bytes) (e : Core) (text : Bytes) : Prop where
  file : ∃ n k k2 k3 lams, program T n src (k + 1) = some (e, k2) ∧ compile e k2 = some (lams, k3) ∧
    ForC (genFor T e) k2 k3 e ∧ FitsFrame r lams ∧ SmallFrames lams ∧ compileToC T n src k = some (text, k3)

/-- **C79**, from source files to the stack of segments: C78 with segments. -/
theorem C79_source_partial {T : Setting} {over : Bool} {E : Ext W} {O : Outside W} (hA : Agree E O) (hO : Parametric O) (hK : KeepsSane O)
    {malloc : List Nat → Nat} (hm : Fresh malloc) {r : Nat} {w : World W} {w' : CWorld MCode W} (hw : Worlds Plain w w')
    (hsw : SaneWorld [] w') (items : List (Bytes × Core × Bytes × Val × World W))
    (hs : XSession over E w (items.map fun i => (i.2.1, i.2.2.2))) (hi : ∀ i ∈ items, SegFileOf T r i.1 i.2.1 i.2.2.1) :
    LoadsSeg (over = false) O malloc r [] w' (items.map (·.2.2)) := by
  have := seg_session hA hO hK hm (n := r) (items.map (·.2)) [] [] w w' textsOf_nil (by intro c hc; simp at hc) (plain_start [] hw) hsw
    (by simpa only [List.map_map, Function.comp_def] using hs) (by
    intro i hi'
    obtain ⟨j, hj, rfl⟩ := List.mem_map.mp hi'
    obtain ⟨n, k, k2, k3, lams, hp, hc, hf, hfit, hsmall, ht⟩ := (hi j hj).file
    obtain ⟨text, file, h1, h2, _⟩ := C78_file_partial hp hc hf
    rw [h1] at ht
    simp only [Option.some.injEq, Prod.mk.injEq, and_true] at ht
    subst ht
    exact ⟨_, _, _, _, hf, hc, h2, hfit, hsmall⟩)
  simpa only [List.map_map, Function.comp_def] using this

/-! ### a program that nests calls as deep as it is told to -/

theorem some_keeps : KeepsSane someOutside := by
  refine ⟨fun units p args r v r' _ h => ?_, fun units id args w v w' _ hw h => ?_⟩
  · simp only [someOutside, Option.map_eq_some_iff] at h
    obtain ⟨n, _, h⟩ := h
    cases h
    exact .int n
  · simp only [someOutside, Option.map_eq_some_iff] at h
    obtain ⟨n, _, h⟩ := h
    cases h
    exact ⟨.int n, hw⟩

/-- memory after everything that is allocated -/
def aboveAll (heap : List Nat) : Nat := heap.foldr max 0 + 256

theorem aboveAll_fresh : Fresh aboveAll := by
  intro heap b hb
  right
  unfold aboveAll
  induction heap with
  | nil => simp at hb
  | cons c heap ih =>
    simp only [List.foldr_cons]
    rcases List.mem_cons.mp hb with rfl | hb
    · omega
    · have := ih hb
      omega

/-- the variable `x` is a number -/
def worldOf (n : Nat) : World (List Int) := someWorld.set (.named "x") (.int n)
/-- the same for the machine -/
def cworldOf (n : Nat) : CWorld MCode (List Int) := someCWorld.set (.named "x") (.int n)

theorem worldOf_plain (n : Nat) : Worlds Plain (worldOf n) (cworldOf n) := by
  refine ⟨rfl, fun x => ?_⟩
  simp only [worldOf, cworldOf, someWorld, someCWorld, Both, World.set, CWorld.set]
  split
  · exact .inr ⟨_, _, rfl, rfl, .int n⟩
  split
  · exact .inr ⟨_, _, rfl, rfl, .native 0 1⟩
  · exact .inl ⟨rfl, rfl⟩

theorem worldOf_sane (n : Nat) : SaneWorld [] (cworldOf n) := by
  intro x v h
  simp only [cworldOf, someCWorld, CWorld.set] at h
  split at h
  · cases h; exact .int n
  split at h
  · cases h; exact .native (by omega)
  · simp at h

/-- `(set 'count (lambda (n) (if (= n 0) 0 (+ (count (- n 1)) 1))))` -/
def countBody : Core := .ite (.app (v! "=") [v! "n", n! 0]) (n! 0) (.app (v! "+") [.app (v! "count") [.app (v! "-") [v! "n", n! 1]], n! 1])
def countForm : Core := set! "count" (.lam [.named "n"] countBody)
/-- `(count x)` -/
def deepForm : Core := .app (v! "count") [v! "x"]
/-- the function -/
def countFn : Val := .clo [.named "n"] countBody []
/-- the world after the first form -/
def countWorld (n : Nat) : World (List Int) := (worldOf n).set (.named "count") countFn

def countFile : List Lam := ((compile countForm 0).map (·.1)).getD []
def deepFile : List Lam := ((compile deepForm 0).map (·.1)).getD []
theorem count_compiled : compile countForm 0 = some (countFile, 5) := rfl
theorem deep_compiled : compile deepForm 0 = some (deepFile, 0) := rfl

theorem countForC : ForC (someGen countForm) 0 5 countForm where
  fresh := by intro n hn; simp [countForm, countBody, Core.syms, Core.symss] at hn
  names := by simp [countForm, countBody, NoPrims, Core.binders, Core.binderss, Sym.isPrim, primArity]
  full := by simp [countForm, countBody, Core.full, Core.fulls, fullCall, primArity]
  tidy := by simp [countForm, countBody, Core.tidy, Core.tidys, Core.lets, Core.letss]
  apart := by simp [countForm, countBody, Core.apart, Core.aparts, Core.lets, Core.letss]
  consts := by simp [countForm, countBody, Core.writable, Core.writables, Datum.writable, Const.datum]
  table := rfl
  entries := entryOk_spec (by decide +kernel)
  vars := varsOk_spec (by decide +kernel)

theorem deepForC : ForC (someGen deepForm) 0 0 deepForm where
  fresh := by intro n hn; simp [deepForm, Core.syms, Core.symss] at hn
  names := by simp [deepForm, NoPrims, Core.binders, Core.binderss, Sym.isPrim, primArity]
  full := by simp [deepForm, Core.full, Core.fulls, fullCall, primArity]
  tidy := by simp [deepForm, Core.tidy, Core.tidys, Core.lets, Core.letss]
  apart := by simp [deepForm, Core.apart, Core.aparts, Core.lets, Core.letss]
  consts := by simp [deepForm, Core.writable, Core.writables, Datum.writable, Const.datum]
  table := rfl
  entries := entryOk_spec (by decide +kernel)
  vars := varsOk_spec (by decide +kernel)

/-- a test for `SmallFrames` -/
theorem smallFrames_of {file : List Lam} (h : (file.all fun l => decide (frameSize l < 256)) = true) : SmallFrames file := by
  rw [List.all_eq_true] at h
  exact fun l hl => of_decide_eq_true (h l hl)

theorem prim_zero (w : World (List Int)) (n : Nat) :
    primApply someExt "=" [.int n, .int 0] w = some (.bool (decide (n = 0)), w) := by
  simp [primApply, Val.datum]

/-- the function gives its argument back, after so many calls inside of each other -/
theorem count_eval (w : World (List Int)) (hw : w.globals (.named "count") = some countFn) :
    ∀ n : Nat, XApply false someExt w countFn [.int n] (.int n) w
  | 0 => by
    refine .clo _ _ _ _ _ _ (.now (.int 0)) _ rfl (.then _ _ _ _ _ _ (.now (.bool true)) _ w _ ?_ (.lit ..))
    exact .prim _ _ _ _ "=" [.int 0, .int 0] [.now (.int 0), .now (.int 0)] _ w _ rfl
      (.cons _ _ _ _ _ _ _ _ _ _ (.local _ _ _ _ rfl) (.cons _ _ _ _ _ _ _ _ _ _ (.lit _ _ (.int 0)) (.nil ..))) rfl
      (.prim _ _ _ _ _ rfl (by simpa using prim_zero w 0))
  | n + 1 => by
    have ih := count_eval w hw n
    refine .clo _ _ _ _ _ _ (.now (.int (n + 1 : Nat))) _ rfl (.else _ _ _ _ _ (.bool false) _ (.now (.bool false)) _ w _ ?_ (by simp) ?_)
    · exact .prim _ _ _ _ "=" [.int (n + 1 : Nat), .int 0] [.now (.int (n + 1 : Nat)), .now (.int 0)] _ w _ rfl
        (.cons _ _ _ _ _ _ _ _ _ _ (.local _ _ _ _ rfl) (.cons _ _ _ _ _ _ _ _ _ _ (.lit _ _ (.int 0)) (.nil ..))) rfl
        (.prim _ _ _ _ _ rfl (by simpa using prim_zero w (n + 1)))
    · refine .prim _ _ _ _ "+" [.int n, .int 1] [.now (.int n), .now (.int 1)] _ w _ rfl
        (.cons _ _ _ _ _ _ _ _ w _ ?_ (.cons _ _ _ _ _ _ _ _ _ _ (.lit _ _ (.int 1)) (.nil ..))) rfl (.prim _ _ _ _ _ rfl (by
          simp [primApply, outside, someExt, arith2, valInt, arith]))
      refine .app _ _ _ _ countFn (.later (.named "count")) [.int n] [.now (.int n)] _ w w _ rfl (.global _ _ _ _ rfl hw)
        (.cons _ _ _ _ _ _ _ _ w _ ?_ (.nil ..)) (by simp [settle, Operand.get, hw]) ih
      exact .prim _ _ _ _ "-" [.int (n + 1 : Nat), .int 1] [.now (.int (n + 1 : Nat)), .now (.int 1)] _ w _ rfl
        (.cons _ _ _ _ _ _ _ _ _ _ (.local _ _ _ _ rfl) (.cons _ _ _ _ _ _ _ _ _ _ (.lit _ _ (.int 1)) (.nil ..))) rfl
        (.prim _ _ _ _ _ rfl (by simp [primApply, outside, someExt, arith2, valInt, arith]))

theorem count_session (n : Nat) : XSession false someExt (worldOf n)
    [(countForm, countFn, countWorld n), (deepForm, .int n, countWorld n)] := by
  apply XSession.cons (o := .now countFn)
  · sev
  apply XSession.cons (o := .now (.int n))
  · exact .app _ _ _ _ countFn (.later (.named "count")) [.int n] [.later (.named "x")] _ _ _ _ rfl (.global _ _ _ _ rfl rfl)
      (.cons _ _ _ _ _ _ _ _ _ _ (.global _ _ _ _ rfl rfl) (.nil ..)) rfl (count_eval _ rfl n)
  exact .nil _

/-- The hypotheses hold of a session whose second file nests `n` calls, for any `n`: both files are loaded, with any number of
segments, and the second gives `n`. -/
example (n : Nat) : ∃ text1 text2, textOf countForm 0 = some text1 ∧ textOf deepForm 0 = some text2 ∧
    LoadsSeg True someOutside aboveAll 3 [] (cworldOf n) [(text1, countFn, countWorld n), (text2, .int n, countWorld n)] := by
  obtain ⟨text1, _, ht1, -⟩ := C77_file_partial (W := List Int) countForC count_compiled
  obtain ⟨text2, _, ht2, -⟩ := C77_file_partial (W := List Int) deepForC deep_compiled
  refine ⟨text1, text2, ht1, ht2, ?_⟩
  have c1 : SegText 3 countForm text1 := ⟨_, _, _, _, countForC, count_compiled, ht1, fitsFrame_of rfl, smallFrames_of rfl⟩
  have c2 : SegText 3 deepForm text2 := ⟨_, _, _, _, deepForC, deep_compiled, ht2, fitsFrame_of rfl, smallFrames_of rfl⟩
  exact C79_ends_partial some_agree some_parametric some_keeps aboveAll_fresh (worldOf_plain n) (worldOf_sane n)
    [(countForm, text1, countFn, countWorld n), (deepForm, text2, .int n, countWorld n)] (count_session n) (by
      intro i hi
      rcases List.mem_cons.mp hi with h | hi
      · rw [h]; dsimp only; exact c1
      rcases List.mem_cons.mp hi with h | hi
      · rw [h]; dsimp only; exact c2
      · cases hi)

/-- `load-so` runs in the first segment -/
def segMach (n : Nat) : SMach (List Int) where
  ctx := ⟨.native 1 2, 0, 0, 3⟩
  frames := [⟨.exit, 0, 0, 0⟩]
  begin_ := 0
  end_ := 256
  data := [0]
  heap := [0]
  mem := fun p => if p = 0 then .native 1 2 else .nil
  res := .nil
  world := cworldOf n

theorem segMach_in (n : Nat) : InSegment 3 (segMach n) where
  captured := rfl
  size := rfl
  some := by decide
  top := ⟨[], rfl⟩
  last := rfl
  low := Nat.le_refl _
  high := (by decide : 3 < 256)
  there := fun _ h => h
  once := by simp [segMach]
  apart := by simp [segMach]

/-! ### where loading fails -/

/-- `(do (set 'id (lambda (a) a)) (do (set 'loop (lambda (n) (if (= n 0) 0 (id loop (- n 1))))) (loop x)))` -/
def loopBody : Core := .ite (.app (v! "=") [v! "n", n! 0]) (n! 0) (.app (v! "id") [v! "loop", .app (v! "-") [v! "n", n! 1]])
def loopForm : Core := .seq (set! "id" (.lam [.named "a"] (v! "a"))) (.seq (set! "loop" (.lam [.named "n"] loopBody)) (.app (v! "loop") [v! "x"]))
def loopFile : List Lam := ((compile loopForm 0).map (·.1)).getD []
theorem loop_compiled : compile loopForm 0 = some (loopFile, 4) := rfl

theorem loopForC : ForC (someGen loopForm) 0 4 loopForm where
  fresh := by intro n hn; simp [loopForm, loopBody, Core.syms, Core.symss] at hn
  names := by simp [loopForm, loopBody, NoPrims, Core.binders, Core.binderss, Sym.isPrim, primArity]
  full := by simp [loopForm, loopBody, Core.full, Core.fulls, fullCall, primArity]
  tidy := by simp [loopForm, loopBody, Core.tidy, Core.tidys, Core.lets, Core.letss]
  apart := by simp [loopForm, loopBody, Core.apart, Core.aparts, Core.lets, Core.letss]
  consts := by simp [loopForm, loopBody, Core.writable, Core.writables, Datum.writable, Const.datum]
  table := rfl
  entries := entryOk_spec (by decide +kernel)
  vars := varsOk_spec (by decide +kernel)

def idFn : Val := .clo [.named "a"] (v! "a") []
def loopFn : Val := .clo [.named "n"] loopBody []
def loopWorld (n : Nat) : World (List Int) := ((worldOf n).set (.named "id") idFn).set (.named "loop") loopFn

theorem loop_eval (w : World (List Int)) (hw : w.globals (.named "loop") = some loopFn) (hi : w.globals (.named "id") = some idFn) :
    ∀ n : Nat, XApply true someExt w loopFn [.int n] (.int 0) w
  | 0 => by
    refine .clo _ _ _ _ _ _ (.now (.int 0)) _ rfl (.then _ _ _ _ _ _ (.now (.bool true)) _ w _ ?_ (.lit ..))
    exact .prim _ _ _ _ "=" [.int 0, .int 0] [.now (.int 0), .now (.int 0)] _ w _ rfl
      (.cons _ _ _ _ _ _ _ _ _ _ (.local _ _ _ _ rfl) (.cons _ _ _ _ _ _ _ _ _ _ (.lit _ _ (.int 0)) (.nil ..))) rfl
      (.prim _ _ _ _ _ rfl (by simpa using prim_zero w 0))
  | n + 1 => by
    have ih := loop_eval w hw hi n
    refine .clo _ _ _ _ _ _ (.now (.int 0)) _ rfl (.else _ _ _ _ _ (.bool false) _ (.now (.bool false)) _ w _ ?_ (by simp) ?_)
    · exact .prim _ _ _ _ "=" [.int (n + 1 : Nat), .int 0] [.now (.int (n + 1 : Nat)), .now (.int 0)] _ w _ rfl
        (.cons _ _ _ _ _ _ _ _ _ _ (.local _ _ _ _ rfl) (.cons _ _ _ _ _ _ _ _ _ _ (.lit _ _ (.int 0)) (.nil ..))) rfl
        (.prim _ _ _ _ _ rfl (by simpa using prim_zero w (n + 1)))
    · refine .app _ _ _ _ idFn (.later (.named "id")) [loopFn, .int n] [.later (.named "loop"), .now (.int n)] _ w w _ rfl
        (.global _ _ _ _ rfl hi) (.cons _ _ _ _ _ _ _ _ w _ (.global _ _ _ _ rfl hw) (.cons _ _ _ _ _ _ _ _ w _ ?_ (.nil ..)))
        (by simp [settle, Operand.get, hw, hi])
        (.more _ _ 1 _ loopFn _ w _ rfl rfl (by simp) (.clo _ _ _ _ _ _ (.now loopFn) _ rfl (.local _ _ _ _ rfl)) ih)
      exact .prim _ _ _ _ "-" [.int (n + 1 : Nat), .int 1] [.now (.int (n + 1 : Nat)), .now (.int 1)] _ w _ rfl
        (.cons _ _ _ _ _ _ _ _ _ _ (.local _ _ _ _ rfl) (.cons _ _ _ _ _ _ _ _ _ _ (.lit _ _ (.int 1)) (.nil ..))) rfl
        (.prim _ _ _ _ _ rfl (by simp [primApply, outside, someExt, arith2, valInt, arith]))

theorem loop_session (n : Nat) : Session someExt (worldOf n) [(loopForm, .int 0, loopWorld n)] := by
  apply XSession.cons (o := .now (.int 0))
  · refine .seq _ _ _ _ idFn _ (.now idFn) _ ((worldOf n).set (.named "id") idFn) _ (by sev) ?_
    refine .seq _ _ _ _ loopFn _ (.now loopFn) _ (loopWorld n) _ (by sev) ?_
    exact .app _ _ _ _ loopFn (.later (.named "loop")) [.int n] [.later (.named "x")] _ _ _ _ rfl (.global _ _ _ _ rfl rfl)
      (.cons _ _ _ _ _ _ _ _ _ _ (.global _ _ _ _ rfl rfl) (.nil ..)) rfl (loop_eval _ rfl rfl n)
  exact .nil _

/-- the result of a run -/
def resOf : End (SMach (List Int)) → Option Int
  | .done t => cvalInt t.res
  | _ => none

/-- does it trap -/
def isTrap : End (SMach (List Int)) → Bool
  | .trap => true
  | _ => false

theorem isTrap_eq {r : End (SMach (List Int))} (h : isTrap r = true) : r = .trap := by
  cases r with
  | trap => rfl
  | _ => simp [isTrap] at h

theorem loop_trap : isTrap (goSeg aboveAll someOutside (lamBlock someOutside [loopFile]) 1000 ((segMach 254).loadSo 0 (loopFile.length - 1)) none) = true := by
  decide +kernel
theorem loop_done : resOf (goSeg aboveAll someOutside (lamBlock someOutside [loopFile]) 1000 ((segMach 200).loadSo 0 (loopFile.length - 1)) none) = some 0 := by
  decide +kernel

theorem loop_text : ∃ text, textOf loopForm 0 = some text ∧ SegText 3 loopForm text ∧ ∃ file, readFile text = some file ∧
    ∀ fuel n, goSeg aboveAll someOutside (textBlock someOutside [text]) fuel ((segMach n).loadSo 0 file.start) none =
      goSeg aboveAll someOutside (lamBlock someOutside [loopFile]) fuel ((segMach n).loadSo 0 (loopFile.length - 1)) none := by
  obtain ⟨text, _, ht, -⟩ := C77_file_partial (W := List Int) loopForC loop_compiled
  have hok := loopForC.fileOk loop_compiled
  have hts : TextsOf [loopFile] [text] := textsOf_nil.snoc ⟨_, hok, ht⟩
  exact ⟨text, ht, ⟨_, _, _, _, loopForC, loop_compiled, ht, fitsFrame_of rfl, smallFrames_of rfl⟩, _, readFile_text hok ht,
    fun fuel n => goSeg_congr (fun u l s hs => textBlock_eq hts someOutside hs) _ _ _⟩

/-- The hypotheses of `C79_result_partial` hold of a session that calls a function with more arguments than it takes, and there its run
ends: a loop of 200 rounds. -/
example : ∃ text, textOf loopForm 0 = some text ∧ LoadsSeg False someOutside aboveAll 3 [] (cworldOf 200) [(text, .int 0, loopWorld 200)] ∧
    ∃ file fuel, readFile text = some file ∧
      resOf (goSeg aboveAll someOutside (textBlock someOutside [text]) fuel ((segMach 200).loadSo 0 file.start) none) = some 0 := by
  obtain ⟨text, ht, hseg, file, hf, heq⟩ := loop_text
  refine ⟨text, ht, ?_, file, 1000, hf, by rw [heq]; exact loop_done⟩
  exact C79_result_partial some_agree some_parametric some_keeps aboveAll_fresh (worldOf_plain 200) (worldOf_sane 200)
    [(loopForm, text, .int 0, loopWorld 200)] (loop_session 200) (by
      intro i hi
      rcases List.mem_cons.mp hi with h | hi
      · rw [h]; dsimp only; exact hseg
      · cases hi)

/-- The hypotheses of `C79_source_partial` hold of the two source files of C78, of which the second calls a function with more arguments
than it takes. -/
example : ∃ text1 text2, compileToC someSetting 100 src1 0 = some (text1, 5) ∧ compileToC someSetting 100 src2 0 = some (text2, 3) ∧
    LoadsSeg False someOutside aboveAll 3 [] someCWorld [(text1, twiceFn, world1), (text2, .int 6, { world1 with rest := [5, 5] })] := by
  obtain ⟨text1, _, h1, -⟩ := C78_file_partial program1 progCompiled1 progForC1
  obtain ⟨text2, _, h2, -⟩ := C78_file_partial program2 progCompiled2 progForC2
  have hsw : SaneWorld [] someCWorld := by
    intro x v h
    simp only [someCWorld] at h
    split at h
    · cases h; exact .native (by omega)
    split at h
    · cases h; exact .int 1
    · simp at h
  have c1 : SegFileOf someSetting 3 src1 prog1 text1 :=
    ⟨_, _, _, _, _, program1, progCompiled1, progForC1, fitsFrame_of rfl, smallFrames_of rfl, h1⟩
  have c2 : SegFileOf someSetting 3 src2 prog2 text2 :=
    ⟨_, _, _, _, _, program2, progCompiled2, progForC2, fitsFrame_of rfl, smallFrames_of rfl, h2⟩
  refine ⟨text1, text2, h1, h2, ?_⟩
  have := C79_source_partial (over := true) some_agree some_parametric some_keeps aboveAll_fresh someWorld_plain hsw
    [(src1, prog1, text1, twiceFn, world1), (src2, prog2, text2, .int 6, { world1 with rest := [5, 5] })] prog_session (by
      intro i hi
      rcases List.mem_cons.mp hi with h | hi
      · rw [h]; dsimp only; exact c1
      rcases List.mem_cons.mp hi with h | hi
      · rw [h]; dsimp only; exact c2
      · cases hi)
  simpa only [Bool.true_eq_false, List.map_cons, List.map_nil] using this

/-- A loop whose tail call passes more arguments than the function takes, `(id loop (- n 1))`, keeps the registers of every round. After
254 rounds they fill two segments, and the return from the loop finds only one of them: the program has the value 0, but loading its
C file ends in a failed assertion. -/
theorem C79_tail_call_wrong : Session someExt (worldOf 254) [(loopForm, .int 0, loopWorld 254)] ∧ InSegment 3 (segMach 254) ∧
    ∃ text file, textOf loopForm 0 = some text ∧ SegText 3 loopForm text ∧ readFile text = some file ∧ ∀ fuel, 1000 ≤ fuel →
      goSeg aboveAll someOutside (textBlock someOutside [text]) fuel ((segMach 254).loadSo 0 file.start) none = .trap := by
  obtain ⟨text, ht, hseg, file, hf, heq⟩ := loop_text
  refine ⟨loop_session 254, segMach_in 254, text, file, ht, hseg, hf, fun fuel hfuel => ?_⟩
  rw [heq]
  exact goSeg_more 1000 _ _ _ fuel (isTrap_eq loop_trap) (by simp) hfuel

/-- A function with 255 parameters or more cannot be called: its frame has 256 registers or more, which no segment has. -/
theorem C79_many_parameters_wrong {malloc : List Nat → Nat} {O : Outside W} {blk : Nat → Nat → Mach W → Option (Mach W × MAct)}
    (lam : Lam) (h : 255 ≤ lam.params.length) (u l : Nat) (caps args : List MVal) (ha : args.length = lam.params.length)
    (t : SMach W) (n : Nat) (ht : InSegment n t) (fuel : Nat) :
    goSeg malloc O blk (fuel + 1) t (some (.call (.clo lam.params.length ⟨u, l, frameSize lam⟩ caps) args)) = .trap := by
  have hf := (frameSize_spec lam).1
  have h1 := ht.low
  have h2 := ht.last
  have h3 := ht.size
  have he : t.enter malloc (.clo lam.params.length ⟨u, l, frameSize lam⟩ caps) args = none := by
    have hz : t.alloc malloc (frameSize lam) = none := by
      unfold SMach.alloc
      rw [if_neg (by omega), if_neg (by omega), if_neg (by omega)]
    show (t.alloc malloc (frameSize lam)).bind _ = none
    rw [hz]; rfl
  simp only [goSeg, CVal.arity, ha, if_true, he]

/-- the compiler makes such functions -/
example : ∃ e file k lam, compile e 0 = some (file, k) ∧ lam ∈ file ∧ 255 ≤ lam.params.length := by
  refine ⟨.lam ((List.range 255).map fun i => .named s!"p{i}") (n! 0), _, _, _, rfl, List.mem_cons_self .., ?_⟩
  decide +kernel

end Cora.Compile
