import Verif.Spec.Machine
/-
Model of the virtual machine of /repo/src/runtime.h and /repo/src/runtime.c: the register stack made of segments, the
call stack, calls and returns, currying, `try`/`throw`/resume and `apply`.

Addresses are natural numbers, counted in units of one `Obj`. `mem` is the memory, `heap` the list of the segments that are allocated
and not freed; an access outside them is undefined and gives `none`, as does a failed assertion. Function objects and
lists are immutable once made and are modelled by value; continuation objects are numbered. `malloc` gives the address
of a new segment: any function; that it does not overlap an allocated one is a hypothesis of the theorems.
The C stack holds, for every call with too many arguments, the pending arguments while the nested `coraRun` runs:
`cstack`. Code that is not part of the virtual machine (compiled functions, other builtins) is the parameter `sem`.
Not modelled: `load`, `import` and the toplevel loop, which call `coraRun` or `coraCall` too.
-/
open Spec.Machine
namespace Cora.VM

/-- src/runtime.h:13-20 `Frame`; `none` is the null function pointer -/
structure Frame where
  fn : Option Code
  label : Nat
  bp : Nat
  sp : Nat

/-- src/runtime.h:29-32 `struct tryMark` -/
structure Mark where
  callstackPos : Nat
  segmentStackPos : Nat

/-- src/runtime.h:41-57 `struct Cora`, with the memory and the C stack. `callstack`, `data` (the segments) and
`trystack` have their last element first. `w`: globals and everything else. -/
structure Cora (W : Type) where
  ctx : Frame
  callstack : List Frame
  begin_ : Nat
  end_ : Nat
  data : List Nat
  res : Val
  trystack : List Mark
  mem : Nat → Val
  heap : List Nat
  conts : List (List Frame × List Nat)
  cstack : List (List Val)
  w : W

variable {W : Type}

/-- is the address inside an allocated segment -/
def Cora.valid (c : Cora W) (p : Nat) : Bool := c.heap.any fun b => b ≤ p && p < b + 256

/-- write consecutive slots -/
def Cora.store (c : Cora W) (a : Nat) (vs : List Val) : Option (Cora W) :=
  if ∀ i < vs.length, c.valid (a + i) then
    some { c with mem := fun p => if a ≤ p ∧ p < a + vs.length then vs.getD (p - a) .nil else c.mem p }
  else none

/-- the contents of `n` slots -/
def readMem (mem : Nat → Val) (a : Nat) (n : Nat) : List Val := (List.range n).map fun i => mem (a + i)

/-- the registers `R[0] ..` of the current frame -/
def Cora.regs (c : Cora W) : Option (List Val) :=
  if ∀ i < c.ctx.sp - c.ctx.bp, c.valid (c.ctx.bp + i) then some (readMem c.mem c.ctx.bp (c.ctx.sp - c.ctx.bp))
  else none

/-- src/runtime.c:19-25 `segmentStackAlloc`; the segment size is `INIT_STACK_SIZE` = 256 -/
def segmentStackAlloc (malloc : List Nat → Nat) (c : Cora W) : Cora W :=
  { c with heap := malloc c.heap :: c.heap, data := malloc c.heap :: c.data,
           begin_ := malloc c.heap, end_ := malloc c.heap + 256 }

/-- src/runtime.c:33-40 `stackAllocSlowPath` -/
def stackAllocSlowPath (malloc : List Nat → Nat) (c : Cora W) (n : Nat) : Option (Cora W) :=
  if n < 256 then
    let c := segmentStackAlloc malloc c
    some { c with ctx := { c.ctx with bp := c.begin_, sp := c.begin_ + n } }
  else none

/-- src/runtime.h:61-71 `stackAlloc`; the new frame is at `ctx.bp` -/
def stackAlloc (malloc : List Nat → Nat) (c : Cora W) (n : Nat) : Option (Cora W) :=
  if n = 0 then none
  else if c.ctx.sp + n < c.end_ then some { c with ctx := { c.ctx with bp := c.ctx.sp, sp := c.ctx.sp + n } }
  else stackAllocSlowPath malloc c n

/-- src/runtime.c:42-53 `coraReturnSlowPath` -/
def coraReturnSlowPath (c : Cora W) : Option (Cora W) :=
  match c.data with
  | top :: b :: r =>
    if top = c.begin_ then
      let c := { c with heap := c.heap.erase c.begin_, data := b :: r, begin_ := b, end_ := b + 256 }
      if c.begin_ ≤ c.ctx.sp ∧ c.ctx.sp < c.end_ then some c else none
    else none
  | _ => none

/-- src/runtime.h:74-84 `coraReturn` -/
def coraReturn (c : Cora W) (val : Val) : Option (Cora W) :=
  match c.callstack with
  | [] => none
  | f :: fs =>
    let c := { c with res := val, ctx := f, callstack := fs }
    if c.ctx.sp < c.begin_ ∨ c.end_ ≤ c.ctx.sp then coraReturnSlowPath c else some c

/-- the part common to src/runtime.h:91-173, src/runtime.c:103-117, 160-168 and 376-387: allocate the frame, put the
function and its arguments in it, and make it current -/
def enter (malloc : List Nat → Nat) (c : Cora W) (f : Val) (args : List Val) : Option (Cora W) :=
  match f with
  | .native code nframe _ _ => do
    let c ← stackAlloc malloc c nframe
    let c ← c.store c.ctx.bp (f :: args)
    some { c with ctx := { c.ctx with fn := some code, label := 0 } }
  | _ => none

/-- src/runtime.c:131-147 `makeCurry` -/
def makeCurry (f : Val) (args : List Val) : Option Val :=
  match f with
  | .native _ nframe required _ =>
    if args.length < required then some (.native .curry nframe (required - args.length) (f :: args)) else none
  | _ => none

/-- src/runtime.c:149-171 `coraDispatch`, with the start of the nested `coraRun` (69-76); the call at 169 is made
when the nested run ends, see `step` -/
def coraDispatch (malloc : List Nat → Nat) (c : Cora W) (f : Val) (args : List Val) : Option (Cora W) :=
  match f with
  | .native _ _ required _ =>
    if args.length < required then do coraReturn c (← makeCurry f args)
    else do
      let c ← enter malloc c f (args.take required)
      some { c with callstack := ⟨none, 0, c.ctx.bp, c.ctx.sp⟩ :: c.callstack,
                    cstack := args.drop required :: c.cstack }
  | _ => none

/-- src/runtime.c:95-118 `coraCall` -/
def coraCall (malloc : List Nat → Nat) (c : Cora W) (f : Val) (args : List Val) : Option (Cora W) :=
  match f with
  | .native _ nframe required _ =>
    if required ≠ args.length then coraDispatch malloc c f args
    else if args.length ≤ nframe then enter malloc c f args
    else none
  | _ => none

/-- src/runtime.h:91-103 `coraCall0` -/
def coraCall0 (malloc : List Nat → Nat) (c : Cora W) (f : Val) : Option (Cora W) :=
  match f with
  | .native _ _ required _ => if required ≠ 0 then coraReturn c f else enter malloc c f []
  | _ => none

/-- src/runtime.h:105-173 `coraCall1` to `coraCall4` -/
def coraCall14 (malloc : List Nat → Nat) (c : Cora W) (f : Val) (args : List Val) : Option (Cora W) :=
  match f with
  | .native _ _ required _ =>
    if required ≠ args.length then coraCall malloc c f args else enter malloc c f args
  | _ => none

/-- lib/toc.cora:389-414: the call a compiled function makes -/
def callN (malloc : List Nat → Nat) (c : Cora W) (f : Val) (args : List Val) : Option (Cora W) :=
  if args.length = 0 then coraCall0 malloc c f
  else if args.length ≤ 4 then coraCall14 malloc c f args
  else coraCall malloc c f args

/-- src/runtime.h:175-184 `saveCont` -/
def saveCont (c : Cora W) (fn : Code) (label : Nat) (bp : Nat) : Cora W :=
  { c with callstack := ⟨some fn, label, bp, c.ctx.sp⟩ :: c.callstack }

/-- lib/toc.cora:368-389: a basic block of a compiled function. Its C locals are modelled by the registers they are
saved to. A function that does not call (a builtin) is the case `ret`. -/
def userBlock (malloc : List Nat → Nat) (sem : Sem W) (n : Nat) (c : Cora W) : Option (Cora W) := do
  let r ← c.regs
  let o ← sem n c.ctx.label r c.res c.w
  if o.regs.length = r.length then
    let c ← c.store c.ctx.bp o.regs
    let c := { c with w := o.w }
    match o.term with
    | .ret v => coraReturn c v
    | .tail f args => callN malloc { c with ctx := { c.ctx with sp := c.ctx.bp } } f args
    | .call l f args => callN malloc (saveCont c (.user n) l c.ctx.bp) f args
  else none

/-- src/runtime.c:120-129 `callCurry` -/
def callCurry (c : Cora W) : Option (Cora W) := do
  let r ← c.regs
  match r with
  | .native _ _ required (g :: got) :: rest =>
    match g with
    | .native code _ _ _ =>
      -- memmove(R + captured, R + 1, nargs); memcpy(R, data, captured)
      if required ≤ rest.length then
        let c ← c.store (c.ctx.bp + (got.length + 1)) (rest.take required)
        let c ← c.store c.ctx.bp (g :: got)
        some { c with ctx := { c.ctx with fn := some code, label := 0 } }
      else none
    | _ => none
  | _ => none

/-- src/runtime.c:663-718 `builtinTryCatch` -/
def builtinTryCatch (malloc : List Nat → Nat) (c : Cora W) : Option (Cora W) :=
  if c.ctx.label = 0 then do
    let r ← c.regs
    match r with
    | r0 :: r1 :: r2 :: _ =>
      let c ← stackAllocSlowPath malloc c 3
      let c ← c.store c.ctx.bp [r0, r1, r2]
      let cont : Frame := ⟨some .tryCatch, 1, c.ctx.bp, c.ctx.sp⟩
      let mark : Mark := ⟨c.callstack.length, c.data.length - 1⟩
      let c := { c with trystack := mark :: c.trystack, callstack := cont :: c.callstack }
      coraCall0 malloc c r1
    | _ => none
  else
    match c.trystack with
    | [] => none
    | _ :: ts => coraReturn { c with trystack := ts } c.res

/-- src/runtime.c:798-830 `builtinThrow` with 733-753 `makeContinuation` -/
def builtinThrow (malloc : List Nat → Nat) (c : Cora W) : Option (Cora W) := do
  let r ← c.regs
  match r, c.trystack with
  | _ :: v :: _, mark :: ts =>
    let n := c.callstack.length - mark.callstackPos
    let m := c.data.length - mark.segmentStackPos
    let cont := (c.callstack.take n, c.data.take m)
    let clo := Val.native .resume 2 1 [.cont c.conts.length]
    let t ← cont.1.getLast?
    if c.valid (t.bp + 2) then
      let handler := c.mem (t.bp + 2)
      match c.data.drop m, c.callstack.drop n with
      | b :: d, before :: cs =>
        let c := { c with
          trystack := ts, conts := c.conts ++ [cont], data := b :: d, begin_ := b, end_ := b + 256,
          callstack := before :: cs, ctx := { c.ctx with bp := before.bp, sp := before.sp } }
        coraCall14 malloc c handler [v, clo]
      | _, _ => none
    else none
  | _, _ => none

/-- src/runtime.c:768-796 `continuationAsClosure` -/
def continuationAsClosure (c : Cora W) : Option (Cora W) := do
  let r ← c.regs
  match r with
  | .native _ _ _ (.cont id :: _) :: v :: _ =>
    let cont ← c.conts[id]?
    let mark : Mark := ⟨c.callstack.length, c.data.length⟩
    let c := { c with trystack := mark :: c.trystack, callstack := cont.1 ++ c.callstack, data := cont.2 ++ c.data }
    match c.data with
    | b :: _ => coraReturn { c with begin_ := b, end_ := b + 256 } v
    | [] => none
  | _ => none

/-- the elements of a list; `none` if it does not end in `()` (src/runtime.c:354-362, 381-385: the loop would read
the `cdr` of something else) -/
def listElems : Val → Option (List Val)
  | .nil => some []
  | .cons a b => (listElems b).map (a :: ·)
  | _ => none

/-- src/runtime.c:364-388 `builtinApply` -/
def builtinApply (malloc : List Nat → Nat) (c : Cora W) : Option (Cora W) := do
  let r ← c.regs
  match r with
  | _ :: f :: l :: _ =>
    let args ← listElems l
    match f with
    | .native _ _ required _ => if required ≠ args.length then none else enter malloc c f args
    | _ => none
  | _ => none

/-- one round of the loop of `coraRun` (src/runtime.c:79-85). When the function pointer is null the innermost
`coraRun` returns: if it was a nested one, `coraDispatch` (169) goes on with the pending arguments. The end of the
outermost run is `none`. -/
def step (malloc : List Nat → Nat) (sem : Sem W) (c : Cora W) : Option (Cora W) :=
  match c.ctx.fn with
  | some (.user n) => userBlock malloc sem n c
  | some .curry => callCurry c
  | some .tryCatch => builtinTryCatch malloc c
  | some .throw => builtinThrow malloc c
  | some .resume => continuationAsClosure c
  | some .apply => builtinApply malloc c
  | none =>
    match c.cstack with
    | [] => none
    | args :: cs => coraCall malloc { c with cstack := cs } c.res args

/-- `n` rounds -/
def runN (malloc : List Nat → Nat) (sem : Sem W) : Nat → Cora W → Option (Cora W)
  | 0, c => some c
  | n + 1, c => (runN malloc sem n c).bind (step malloc sem)

/-- src/runtime.c:1130-1154 `coraGCFunc`: the values marked as roots, the globals (part of `w`) apart: the current
frame, the result, all frames of the call stack -/
def roots (c : Cora W) : List Val :=
  readMem c.mem c.ctx.bp (c.ctx.sp - c.ctx.bp) ++ [c.res] ++
    c.callstack.flatMap fun f => readMem c.mem f.bp (f.sp - f.bp)

/-- src/runtime.c:755-766 `continuationGCFunc`: the values a continuation object keeps -/
def contRoots (c : Cora W) (id : Nat) : List Val :=
  match c.conts[id]? with
  | some k => k.1.flatMap fun f => readMem c.mem f.bp (f.sp - f.bp)
  | none => []

end Cora.VM
