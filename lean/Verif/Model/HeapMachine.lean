import Verif.Model.GC
import Verif.Model.SegMachine
/-
The machine that runs compiled programs, with the runtime's heap: registers hold words, which are numbers and the like or point to
objects; objects are allocated by the collector of Model/GC.lean, which frees the ones that it finds unused and lets new objects take
their place. The stack is the stack of segments of Model/SegMachine.lean.

The collector runs when the code lets it run. A cycle starts only in the loop of `coraRun`, between two blocks; its roots are the
words in the global variables, in `res` and in the registers of all frames. The collector marks and sweeps when something is
allocated. How much it does at a time, and whether a cycle starts, is left open: runs are a relation.

Simplifications. Nothing is assumed about the contents of slots that were freed. All symbols are interned (symbols made by `gensym` are
objects in the code; here their values are among the roots). The operands of a C call are evaluated from left to right. The
statements are those of Model/CompileMachine.lean, not the C text. There is no `try`.
-/
open Spec.Lang
namespace Cora.Compile
open GC
variable {W : Type}

/-- src/types.h `Obj`: a value that fits in a word, or a pointer to an object. Symbols are interned strings outside of the heap. -/
inductive Word where
  | int (n : Int)
  | bool (b : Bool)
  | nil
  | sym (x : Spec.Lang.Sym)
  | ptr (x : SlotId)

/-- the pointer that the collector finds in a word (src/gc.c:767-779) -/
def Word.kid : Word → Option SlotId
  | .ptr x => some x
  | _ => none

/-- objects: pairs (src/types.c:61-67), strings (src/types.h:113-117) and functions (src/types.h:139-147) -/
inductive Cell where
  | cons (a d : Word)
  | str (s : String)
  | fn (code : Fn) (nframe required : Nat) (data : List Word)

/-- the words in an object -/
def Cell.words : Cell → List Word
  | .cons a d => [a, d]
  | .str _ => []
  | .fn _ _ _ data => data

/-- what the collector finds in an object: src/types.c:69-75 `consGCFunc`, 148-150 `bytesGCFunc`, 220-227 `nativeGCFunc` -/
def Cell.kids (c : Cell) : List (Option SlotId) := c.words.map Word.kid

/-- objects, the collector, global variables and everything else. src/runtime.h:41-57: `globals` is a vector. -/
structure Heap (W : Type) where
  gc : St
  cell : SlotId → Cell
  globals : List (Spec.Lang.Sym × Word)
  rest : W

/-- the value of a global variable -/
def hfind (x : Spec.Lang.Sym) : List (Spec.Lang.Sym × Word) → Option Word
  | [] => none
  | (y, w) :: r => if y = x then some w else hfind x r

/-- src/runtime.c:173-187 `bindSymbol`: a new variable is put at the end -/
def hassign (x : Spec.Lang.Sym) (v : Word) : List (Spec.Lang.Sym × Word) → List (Spec.Lang.Sym × Word)
  | [] => [(x, v)]
  | (y, w) :: r => if y = x then (y, v) :: r else (y, w) :: hassign x v r

section
variable [Layout]

/-- what `gcAlloc` may do before it has found a slot: src/gc.c:552-587 and `gcRun` (1045-1071). The predicate says which slots are freed. -/
inductive Collect : St → Freed → St → Prop where
  | getBlock {s s'} (b n) : Layout.large b = false → s.nslots b = 0 → 0 < n → getBlock s b n = some s' → Collect s (fun _ => False) s'
  | skip {s s'} (b) : s.listed b = true → s.curr b < s.nslots b → allocStep s b [] = (s', none) → Collect s (fun _ => False) s'
  | pop {s} (b) : s.listed b = true → s.curr b = s.nslots b → Collect s (fun _ => False) (popBlock s b)
  | run {s s'} : s.phase = .incr → gcRunIncremental1 s = some s' →
      Collect s (fun y => (s.obj y).used = true ∧ (s'.obj y).used = false) s'
  | sweepSmall {s} (x) : s.phase = .sweep → Layout.large x.1 = false → inuse s (s.obj x) = 0 → Collect s (fun y => y = x) (sweepSlot s x)
  | sweepLarge {s} (x) : s.phase = .sweep → Layout.large x.1 = true → (s.obj x).version.ver = (s.version + 62) % 64 →
      Collect s (fun y => y = x) (sweepSlot s x)
  | flip {s} : s.phase = .sweep → sweptAll s → Collect s (fun y => (s.obj y).used = true ∧ ((gcFlip s).obj y).used = false) (gcFlip s)

/-- any number of such steps. Slots that are freed may be overwritten. -/
inductive Work : St → (SlotId → Cell) → St → (SlotId → Cell) → Prop where
  | none (s cell) : Work s cell s cell
  | more {s cell s1 cell1 f s2 cell2} : Work s cell s1 cell1 → Collect s1 f s2 → (∀ y, ¬ f y → cell2 y = cell1 y) → Work s cell s2 cell2

/-- src/gc.c:552-588 `gcAlloc`, src/types.c:30-38 `newObj` and the stores that build the object (src/types.c:61-67, 100-130, 192-212,
src/runtime.c:131-147) -/
inductive NewObj (hp : Heap W) (c : Cell) : Heap W → SlotId → Prop where
  | small {gc1 cell1 b gc2 x} : Work hp.gc hp.cell gc1 cell1 → gc1.listed b = true → gc1.curr b < gc1.nslots b →
      allocStep gc1 b c.kids = (gc2, some x) → NewObj hp c { hp with gc := gc2, cell := upd cell1 x c } x
  | large {gc1 cell1 x merged cell2} : Work hp.gc hp.cell gc1 cell1 → Layout.large x.1 = true → inuse gc1 (gc1.obj x) = 0 →
      (∀ y ∈ merged, Layout.large y.1 = true ∧ inuse gc1 (gc1.obj y) = 0) → (∀ y, y ≠ x → y ∉ merged → cell2 y = cell1 y) → cell2 x = c →
      NewObj hp c { hp with gc := allocLarge gc1 x merged c.kids, cell := cell2 } x

/-- src/runtime.h:224-229 `globalSet`: while the collector marks, the old value is marked (src/gc.c:1073-1081) -/
def Heap.setGlobal (hp : Heap W) (x : Spec.Lang.Sym) (v : Word) : Option (Heap W) :=
  (match hp.gc.phase, hfind x hp.globals with
    | .incr, some (.ptr p) => gcMark hp.gc p none
    | _, _ => some hp.gc).map fun gc => { hp with gc := gc, globals := hassign x v hp.globals }

/-! ### builtin functions -/

/-- the builtin functions that are not part of the model, on words -/
structure HOutside (W : Type) where
  prim : String → List Word → Heap W → Word → Heap W → Prop
  native : Nat → List Word → Heap W → Word → Heap W → Prop

/-- the object that a word points to -/
def cellOf (cell : SlotId → Cell) : Word → Option Cell
  | .ptr x => some (cell x)
  | _ => none

/-- the word stands for a value without functions -/
inductive Denotes (cell : SlotId → Cell) : Word → Datum → Prop where
  | int (n) : Denotes cell (.int n) (.int n)
  | bool (b) : Denotes cell (.bool b) (.bool b)
  | nil : Denotes cell .nil .nil
  | sym (x) : Denotes cell (.sym x) (.sym x)
  | str {x s} : cell x = .str s → Denotes cell (.ptr x) (.str s)
  | cons {x a d u v} : cell x = .cons a d → Denotes cell a u → Denotes cell d v → Denotes cell (.ptr x) (.cons u v)

/-- what a primitive does: it gives a word, it allocates an object, it sets a global variable, it compares, or it is not modelled -/
inductive Req where
  | now (w : Word)
  | new (c : Cell)
  | set (x : Spec.Lang.Sym) (v : Word)
  | eq (a b : Word)
  | out

/-- the primitives, as `cprim` in Model/CompileRun.lean; src/types.c:41-83, src/types.h:96-137, src/runtime.c:203-221 -/
def hprim (cell : SlotId → Cell) (p : String) (args : List Word) : Option Req :=
  match p, args with
  | "set", [.sym x, v] => some (.set x v)
  | "set", _ => none
  | "car", [w] => match cellOf cell w with | some (.cons a _) => some (.now a) | _ => none
  | "car", _ => none
  | "cdr", [w] => match cellOf cell w with | some (.cons _ d) => some (.now d) | _ => none
  | "cdr", _ => none
  | "cons", [a, d] => some (.new (.cons a d))
  | "cons?", [w] => match cellOf cell w with | some (.cons _ _) => some (.now (.bool true)) | _ => some (.now (.bool false))
  | "=", [a, b] => some (.eq a b)
  | "not", [.bool b] => some (.now (.bool (!b)))
  | "not", _ => none
  | "symbol?", [.sym _] => some (.now (.bool true))
  | "symbol?", [_] => some (.now (.bool false))
  | "integer?", [.int _] => some (.now (.bool true))
  | "string?", [w] => match cellOf cell w with | some (.str _) => some (.now (.bool true)) | _ => some .out
  | _, _ => some .out

/-- running a primitive -/
inductive HPrim (HO : HOutside W) (p : String) (args : List Word) (hp : Heap W) : Word → Heap W → Prop where
  | now {w} : hprim hp.cell p args = some (.now w) → HPrim HO p args hp w hp
  | new {c hp' x} : hprim hp.cell p args = some (.new c) → NewObj hp c hp' x → HPrim HO p args hp (.ptr x) hp'
  | set {x v hp'} : hprim hp.cell p args = some (.set x v) → hp.setGlobal x v = some hp' → HPrim HO p args hp v hp'
  /-- src/types.h:116-134 `eq` on data -/
  | eq {a b u v} : hprim hp.cell p args = some (.eq a b) → Denotes hp.cell a u → Denotes hp.cell b v →
      HPrim HO p args hp (.bool (decide (u = v))) hp
  /-- one side has a function in it -/
  | eqLeft {a b u} : hprim hp.cell p args = some (.eq a b) → Denotes hp.cell a u → (∀ v, ¬ Denotes hp.cell b v) →
      HPrim HO p args hp (.bool false) hp
  | eqRight {a b v} : hprim hp.cell p args = some (.eq a b) → (∀ u, ¬ Denotes hp.cell a u) → Denotes hp.cell b v →
      HPrim HO p args hp (.bool false) hp
  /-- both sides have; as in `cprim` this is not modelled -/
  | eqOut {a b w hp'} : hprim hp.cell p args = some (.eq a b) → (∀ u, ¬ Denotes hp.cell a u) → (∀ v, ¬ Denotes hp.cell b v) →
      HO.prim p args hp w hp' → HPrim HO p args hp w hp'
  | out {w hp'} : hprim hp.cell p args = some .out → HO.prim p args hp w hp' → HPrim HO p args hp w hp'

/-! ### blocks -/

/-- local variables -/
abbrev HEnv := List (Spec.Lang.Sym × Word)

/-- src/runtime.h:197-204 `closureRef`: the words in the function object -/
def dataOf (cell : SlotId → Cell) (r0 : Word) : List Word :=
  match cellOf cell r0 with
  | some (.fn _ _ _ data) => data
  | _ => []

/-- lib/toc.cora:301, 307-310: read a reference -/
def Ref.hget (env : HEnv) (caps : List Word) : Ref → Option Word
  | .loc x => hfind x env
  | .cap i => caps[i]?

/-- read several references -/
def hgetRefs (env : HEnv) (caps : List Word) : List Ref → Option (List Word)
  | [] => some []
  | r :: rs =>
    match r.hget env caps, hgetRefs env caps rs with
    | some v, some vs => some (v :: vs)
    | _, _ => none

/-- lib/toc.cora:311-326: a constant that needs no object -/
def wordOf : Datum → Option Word
  | .int n => some (.int n)
  | .bool b => some (.bool b)
  | .nil => some .nil
  | .sym x => some (.sym x)
  | _ => none

/-- lib/toc.cora:301-326, 353-367: an operand in compiled file `unit`; `r0` is the word in register 0. Strings and functions are
allocated. The generator has no case for pairs. -/
inductive HEval (unit : Nat) (r0 : Word) (env : HEnv) (hp : Heap W) : CSmp → Word → Heap W → Prop where
  | const {d w} : wordOf d = some w → HEval unit r0 env hp (.const d) w hp
  | str {s hp' x} : NewObj hp (.str s) hp' x → HEval unit r0 env hp (.const (.str s)) (.ptr x) hp'
  | global {x w} : hfind x hp.globals = some w → HEval unit r0 env hp (.global x) w hp
  | ref {r w} : r.hget env (dataOf hp.cell r0) = some w → HEval unit r0 env hp (.ref r) w hp
  | closure {label nargs nframe frees ws hp' x} : hgetRefs env (dataOf hp.cell r0) frees = some ws →
      NewObj hp (.fn (.code unit label) nframe nargs ws) hp' x → HEval unit r0 env hp (.closure label nargs nframe frees) (.ptr x) hp'

/-- operands, from left to right -/
inductive HEvals (unit : Nat) (r0 : Word) (env : HEnv) : Heap W → List CSmp → List Word → Heap W → Prop where
  | nil (hp) : HEvals unit r0 env hp [] [] hp
  | cons {hp e es w ws hp1 hp2} : HEval unit r0 env hp e w hp1 → HEvals unit r0 env hp1 es ws hp2 →
      HEvals unit r0 env hp (e :: es) (w :: ws) hp2

/-- src/runtime.h:22-27, 41-57, as `SMach`; `segs` lists the segments that are allocated -/
structure HMach (W : Type) where
  ctx : MFrame
  frames : List MFrame
  begin_ : Nat
  end_ : Nat
  data : List Nat
  segs : List Nat
  mem : Nat → Word
  res : Word
  heap : Heap W

/-- what a block ends with -/
inductive HAct where
  | ret (w : Word)
  | call (f : Word) (args : List Word)

/-- write consecutive registers -/
def storeW (mem : Nat → Word) (a : Nat) (vs : List Word) : Nat → Word :=
  fun p => if a ≤ p ∧ p < a + vs.length then vs.getD (p - a) .nil else mem p

/-- read consecutive registers -/
def readW (mem : Nat → Word) (a n : Nat) : List Word := (List.range n).map fun i => mem (a + i)

/-- lib/toc.cora:327-414: run the statements of a block, up to `coraReturn` or `coraCall` -/
inductive HExec (HO : HOutside W) (unit : Nat) : CStm → HEnv → HMach W → HMach W → HAct → Prop where
  | ret {e env h w hp} : HEval unit (h.mem h.ctx.bp) env h.heap e w hp → HExec HO unit (.ret e) env h { h with heap := hp } (.ret w)
  | tail {f args env h g ws hp hp'} : HEval unit (h.mem h.ctx.bp) env h.heap f g hp →
      HEvals unit (h.mem h.ctx.bp) env hp args ws hp' →
      HExec HO unit (.tail f args) env h { h with heap := hp', ctx := { h.ctx with sp := h.ctx.bp } } (.call g ws)
  | call {f args label live env h us g ws hp hp'} : hgetRefs env [] (live.map Ref.loc) = some us →
      HEval unit (h.mem h.ctx.bp) env h.heap f g hp → HEvals unit (h.mem h.ctx.bp) env hp args ws hp' →
      HExec HO unit (.call f args label live) env h
        { h with heap := hp', mem := storeW h.mem (h.ctx.bp + 1) us, frames := { h.ctx with label := label } :: h.frames } (.call g ws)
  | bind {x e k env h w hp h' a} : HEval unit (h.mem h.ctx.bp) env h.heap e w hp →
      HExec HO unit k ((x, w) :: env) { h with heap := hp } h' a → HExec HO unit (.bind x e k) env h h' a
  | prim {x p args k env h ws hp w hp' h' a} : HEvals unit (h.mem h.ctx.bp) env h.heap args ws hp → HPrim HO p ws hp w hp' →
      HExec HO unit k ((x, w) :: env) { h with heap := hp' } h' a → HExec HO unit (.prim x p args k) env h h' a
  | seq {e k env h w hp h' a} : HEval unit (h.mem h.ctx.bp) env h.heap e w hp →
      HExec HO unit k env { h with heap := hp } h' a → HExec HO unit (.seq e k) env h h' a
  | iteTrue {e k1 k2 env h hp h' a} : HEval unit (h.mem h.ctx.bp) env h.heap e (.bool true) hp →
      HExec HO unit k1 env { h with heap := hp } h' a → HExec HO unit (.ite e k1 k2) env h h' a
  | iteFalse {e k1 k2 env h w hp h' a} : HEval unit (h.mem h.ctx.bp) env h.heap e w hp → w ≠ .bool true →
      HExec HO unit k2 env { h with heap := hp } h' a → HExec HO unit (.ite e k1 k2) env h h' a

/-- lib/toc.cora:540-566, 434-442: case `label` of the C function of `l` -/
inductive HBlock (HO : HOutside W) (unit : Nat) (l : Lam) (h : HMach W) : HMach W → HAct → Prop where
  | start {h' a} : h.ctx.label = 0 →
      HExec HO unit l.body (l.params.zip (readW h.mem (h.ctx.bp + 1) l.params.length)).reverse h h' a → HBlock HO unit l h h' a
  | cont {i c h' a} : h.ctx.label = i + 1 → l.conts[i]? = some c →
      HExec HO unit c.body ((c.val, h.res) :: c.live.zip (readW h.mem (h.ctx.bp + 1) c.live.length)) h h' a → HBlock HO unit l h h' a

end

/-! ### the stack: as in Model/SegMachine.lean -/

/-- is the address inside an allocated segment -/
def HMach.valid (h : HMach W) (p : Nat) : Bool := h.segs.any fun b => b ≤ p && p < b + 256

/-- are the registers of the current frame -/
def HMach.frameOk (h : HMach W) : Bool := (List.range (h.ctx.sp - h.ctx.bp)).all fun i => h.valid (h.ctx.bp + i)

/-- write consecutive registers -/
def HMach.store (h : HMach W) (a : Nat) (vs : List Word) : Option (HMach W) :=
  if (List.range vs.length).all fun i => h.valid (a + i) then some { h with mem := storeW h.mem a vs } else none

/-- src/runtime.c:19-25 `segmentStackAlloc` -/
def HMach.newSegment (malloc : List Nat → Nat) (h : HMach W) : HMach W :=
  { h with segs := malloc h.segs :: h.segs, data := malloc h.segs :: h.data,
           begin_ := malloc h.segs, end_ := malloc h.segs + 256 }

/-- src/runtime.h:61-71 `stackAlloc` and src/runtime.c:33-40 `stackAllocSlowPath` -/
def HMach.alloc (malloc : List Nat → Nat) (h : HMach W) (n : Nat) : Option (HMach W) :=
  if n = 0 then none
  else if h.ctx.sp + n < h.end_ then some { h with ctx := { h.ctx with bp := h.ctx.sp, sp := h.ctx.sp + n } }
  else if n < 256 then
    let h := h.newSegment malloc
    some { h with ctx := { h.ctx with bp := h.begin_, sp := h.begin_ + n } }
  else none

/-- src/runtime.c:42-53 `coraReturnSlowPath` -/
def HMach.dropSegment (h : HMach W) : Option (HMach W) :=
  match h.data with
  | top :: b :: r =>
    if top = h.begin_ then
      if b ≤ h.ctx.sp ∧ h.ctx.sp < b + 256 then
        some { h with segs := h.segs.erase h.begin_, data := b :: r, begin_ := b, end_ := b + 256 }
      else none
    else none
  | _ => none

/-- src/runtime.h:74-84 `coraReturn` -/
def HMach.ret (h : HMach W) (w : Word) : Option (HMach W) :=
  match h.frames with
  | f :: fs =>
    let h := { h with res := w, ctx := f, frames := fs }
    if h.ctx.sp < h.begin_ ∨ h.end_ ≤ h.ctx.sp then h.dropSegment else some h
  | [] => none

/-- src/runtime.h:91-173, src/runtime.c:95-117: the frame of the called function; `code` and `nframe` are read from the function
object `f` -/
def HMach.enter (malloc : List Nat → Nat) (h : HMach W) (code : Fn) (nframe : Nat) (f : Word) (args : List Word) : Option (HMach W) := do
  let h ← h.alloc malloc nframe
  let h ← h.store h.ctx.bp (f :: args)
  some { h with ctx := { h.ctx with fn := code, label := 0 } }

/-- src/runtime.c:70-77: the frame that ends `coraRun` -/
def HMach.pushExit (h : HMach W) : HMach W := { h with frames := { h.ctx with fn := .exit, label := 0 } :: h.frames }

/-- src/runtime.c:325-352 `builtinLoadSo`, as in Model/CompileMachine.lean -/
def HMach.loadSo (h : HMach W) (unit label : Nat) : HMach W :=
  let h := h.pushExit
  { h with ctx := { h.ctx with fn := .code unit label, label := 0 } }

/-- src/runtime.c:119-129 `callCurry` -/
def hcurryBlock (h : HMach W) : Option (HMach W) :=
  match cellOf h.heap.cell (h.mem h.ctx.bp) with
  | some (.fn _ _ required (f :: got)) =>
    match cellOf h.heap.cell f with
    | some (.fn code _ _ _) =>
      some { h with
        mem := storeW h.mem h.ctx.bp (f :: got ++ readW h.mem (h.ctx.bp + 1) required)
        ctx := { h.ctx with fn := code, label := 0 } }
    | _ => none
  | _ => none

/-- the words in the registers of a frame -/
def regsOf (mem : Nat → Word) (f : MFrame) : List Word := readW mem f.bp (f.sp - f.bp)

/-- src/runtime.c:1130-1154 `coraGCFunc` -/
def HMach.roots (h : HMach W) : List (Option SlotId) :=
  (h.heap.globals.map (·.2) ++ regsOf h.mem h.ctx ++ [h.res] ++ h.frames.flatMap (regsOf h.mem)).map Word.kid

/-! ### runs -/

/-- src/runtime.c:69-86 `coraRun`, with src/runtime.c:95-171 for an action that is pending, as `goSeg` in Model/SegMachine.lean. Between
two blocks a cycle of the collector may start. -/
inductive HGo [Layout] (malloc : List Nat → Nat) (HO : HOutside W) (units : List (List Lam)) :
    HMach W → Option HAct → HMach W → Prop where
  | exit {h} : h.ctx.fn = .exit → HGo malloc HO units h none h
  /-- src/runtime.c:82-84 -/
  | collect {h gc h'} : h.heap.gc.phase = .none → gcMarkRoot h.heap.gc h.roots = some gc →
      HGo malloc HO units { h with heap := { h.heap with gc := gc } } none h' → HGo malloc HO units h none h'
  | code {h u l code lam h1 a h'} : h.ctx.fn = .code u l → h.frameOk = true → units[u]? = some code → code[l]? = some lam →
      HBlock HO u lam h h1 a → HGo malloc HO units h1 (some a) h' → HGo malloc HO units h none h'
  | prim {h p k w hp h'} : h.ctx.fn = .prim p → h.frameOk = true → primArity p = some k →
      HPrim HO p (readW h.mem (h.ctx.bp + 1) k) h.heap w hp → HGo malloc HO units { h with heap := hp } (some (.ret w)) h' →
      HGo malloc HO units h none h'
  | native {h id k w hp h'} : h.ctx.fn = .native id k → h.frameOk = true →
      HO.native id (readW h.mem (h.ctx.bp + 1) k) h.heap w hp → HGo malloc HO units { h with heap := hp } (some (.ret w)) h' →
      HGo malloc HO units h none h'
  | curry {h h1 h'} : h.ctx.fn = .curry → h.frameOk = true → hcurryBlock h = some h1 → HGo malloc HO units h1 none h' →
      HGo malloc HO units h none h'
  | ret {h w h1 h'} : h.ret w = some h1 → HGo malloc HO units h1 none h' → HGo malloc HO units h (some (.ret w)) h'
  | call {h f args code nframe data h1 h'} : cellOf h.heap.cell f = some (.fn code nframe args.length data) →
      h.enter malloc code nframe f args = some h1 → HGo malloc HO units h1 none h' → HGo malloc HO units h (some (.call f args)) h'
  | callNone {h f code nframe required data h'} : cellOf h.heap.cell f = some (.fn code nframe required data) → required ≠ 0 →
      HGo malloc HO units h (some (.ret f)) h' → HGo malloc HO units h (some (.call f [])) h'
  /-- src/runtime.c:131-147 `makeCurry` -/
  | callLess {h f args code nframe required data hp x h'} : cellOf h.heap.cell f = some (.fn code nframe required data) →
      args.length ≠ 0 → args.length < required → NewObj h.heap (.fn .curry nframe (required - args.length) (f :: args)) hp x →
      HGo malloc HO units { h with heap := hp } (some (.ret (.ptr x))) h' → HGo malloc HO units h (some (.call f args)) h'
  /-- the nested `coraRun`: the other arguments are only in a C array -/
  | callMore {h f args code nframe required data h1 h2 h'} : cellOf h.heap.cell f = some (.fn code nframe required data) →
      required < args.length → h.enter malloc code nframe f (args.take required) = some h1 →
      HGo malloc HO units h1.pushExit none h2 → HGo malloc HO units h2 (some (.call h2.res (args.drop required))) h' →
      HGo malloc HO units h (some (.call f args)) h'

end Cora.Compile
