import Verif.Model.CodeMachine
/-
The machine that runs compiled programs, on the stack that the runtime has: segments of 256 registers, which are allocated when
a call needs room and freed when the call returns. Model/CompileMachine.lean and Model/CodeMachine.lean have one unbounded array
instead; everything else is as there.

Addresses are natural numbers, counted in units of one register. `heap` lists the segments that are allocated; `malloc` gives the
address of a new one. A register of a frame that is not inside of an allocated segment, and an assertion that fails, make the run
`trap`. Simplification: functions that use registers outside of their frame are not caught, they use whatever memory is there.
-/
open Spec.Lang
namespace Cora.Compile
variable {W : Type}

/-- how a run ends: it was given too few steps, or it traps, or it stops in a state -/
inductive End (α : Type) where
  | more
  | trap
  | done (a : α)

/-- src/runtime.h:22-27, 41-57: the registers in use and the segments. `data` has the current segment first. -/
structure SMach (W : Type) where
  ctx : MFrame
  frames : List MFrame
  begin_ : Nat
  end_ : Nat
  data : List Nat
  heap : List Nat
  mem : Nat → MVal
  res : MVal
  world : CWorld MCode W

/-- is the address inside an allocated segment -/
def SMach.valid (t : SMach W) (p : Nat) : Bool := t.heap.any fun b => b ≤ p && p < b + 256

/-- are the registers of the current frame -/
def SMach.frameOk (t : SMach W) : Bool := (List.range (t.ctx.sp - t.ctx.bp)).all fun i => t.valid (t.ctx.bp + i)

/-- write consecutive registers -/
def SMach.store (t : SMach W) (a : Nat) (vs : List MVal) : Option (SMach W) :=
  if (List.range vs.length).all fun i => t.valid (a + i) then some { t with mem := storeAt t.mem a vs } else none

/-- src/runtime.c:19-25 `segmentStackAlloc`; the segment size is `INIT_STACK_SIZE` = 256 -/
def SMach.newSegment (malloc : List Nat → Nat) (t : SMach W) : SMach W :=
  { t with heap := malloc t.heap :: t.heap, data := malloc t.heap :: t.data,
           begin_ := malloc t.heap, end_ := malloc t.heap + 256 }

/-- src/runtime.h:61-71 `stackAlloc` and src/runtime.c:33-40 `stackAllocSlowPath` -/
def SMach.alloc (malloc : List Nat → Nat) (t : SMach W) (n : Nat) : Option (SMach W) :=
  if n = 0 then none
  else if t.ctx.sp + n < t.end_ then some { t with ctx := { t.ctx with bp := t.ctx.sp, sp := t.ctx.sp + n } }
  else if n < 256 then
    let t := t.newSegment malloc
    some { t with ctx := { t.ctx with bp := t.begin_, sp := t.begin_ + n } }
  else none

/-- src/runtime.c:42-53 `coraReturnSlowPath` -/
def SMach.dropSegment (t : SMach W) : Option (SMach W) :=
  match t.data with
  | top :: b :: r =>
    if top = t.begin_ then
      if b ≤ t.ctx.sp ∧ t.ctx.sp < b + 256 then
        some { t with heap := t.heap.erase t.begin_, data := b :: r, begin_ := b, end_ := b + 256 }
      else none
    else none
  | _ => none

/-- src/runtime.h:74-84 `coraReturn` -/
def SMach.ret (t : SMach W) (v : MVal) : Option (SMach W) :=
  match t.frames with
  | f :: fs =>
    let t := { t with res := v, ctx := f, frames := fs }
    if t.ctx.sp < t.begin_ ∨ t.end_ ≤ t.ctx.sp then t.dropSegment else some t
  | [] => none

/-- src/runtime.h:91-173, src/runtime.c:95-117: the frame of the called function -/
def SMach.enter (malloc : List Nat → Nat) (t : SMach W) (f : MVal) (args : List MVal) : Option (SMach W) := do
  let t ← t.alloc malloc (nframeOf f)
  let t ← t.store t.ctx.bp (f :: args)
  some { t with ctx := { t.ctx with fn := fnOf f, label := 0 } }

/-- src/runtime.c:70-77: the frame that ends `coraRun` -/
def SMach.pushExit (t : SMach W) : SMach W := { t with frames := { t.ctx with fn := .exit, label := 0 } :: t.frames }

/-- src/runtime.c:325-352 `builtinLoadSo`, as in Model/CompileMachine.lean -/
def SMach.loadSo (t : SMach W) (unit label : Nat) : SMach W :=
  let t := t.pushExit
  { t with ctx := { t.ctx with fn := .code unit label, label := 0 } }

/-- what the code of a function sees: registers are at the addresses from `bp` on -/
def SMach.view (t : SMach W) : Mach W := ⟨t.ctx, t.frames, t.mem, t.res, t.world⟩

/-- what it leaves -/
def SMach.put (t : SMach W) (s : Mach W) : SMach W :=
  { t with ctx := s.ctx, frames := s.frames, mem := s.stack, res := s.res, world := s.world }

/-- src/runtime.c:69-86 `coraRun`, with src/runtime.c:95-117, 149-171 (`coraCall`, `coraDispatch`) for an action that is pending,
as `go` in Model/CompileMachine.lean. `blk u l` is what function `l` of file `u` does. -/
def goSeg (malloc : List Nat → Nat) (O : Outside W) (blk : Nat → Nat → Mach W → Option (Mach W × MAct)) :
    Nat → SMach W → Option MAct → End (SMach W)
  | 0, _, _ => .more
  | n + 1, t, none =>
    match t.ctx.fn with
    | .exit => .done t
    | .code u l =>
      if t.frameOk then
        match blk u l t.view with
        | some (s, a) => goSeg malloc O blk n (t.put s) (some a)
        | none => .trap
      else .trap
    | .prim p =>
      if t.frameOk then
        match primArity p with
        | some k =>
          match cprim O p (readAt t.mem (t.ctx.bp + 1) k) t.world with
          | some (v, w) => goSeg malloc O blk n { t with world := w } (some (.ret v))
          | none => .trap
        | none => .trap
      else .trap
    | .native id k =>
      if t.frameOk then
        match O.native id (readAt t.mem (t.ctx.bp + 1) k) t.world with
        | some (v, w) => goSeg malloc O blk n { t with world := w } (some (.ret v))
        | none => .trap
      else .trap
    | .curry =>
      if t.frameOk then
        match curryBlock t.view with
        | some s => goSeg malloc O blk n (t.put s) none
        | none => .trap
      else .trap
  | n + 1, t, some (.ret v) =>
    match t.ret v with
    | some t => goSeg malloc O blk n t none
    | none => .trap
  | n + 1, t, some (.call f args) =>
    match f.arity with
    | some a =>
      if args.length = a then
        match t.enter malloc f args with
        | some t => goSeg malloc O blk n t none
        | none => .trap
      else if args.length = 0 then goSeg malloc O blk n t (some (.ret f))
      else if args.length < a then goSeg malloc O blk n t (some (.ret (.pap f args)))
      else
        match t.enter malloc f (args.take a) with
        | some t =>
          match goSeg malloc O blk n t.pushExit none with
          | .done t => goSeg malloc O blk n t (some (.call t.res (args.drop a)))
          | .more => .more
          | .trap => .trap
        | none => .trap
    | none => .trap

/-- function `l` of compiled file `u`, before the C text is made -/
def lamBlock (O : Outside W) (units : List (List Lam)) (u l : Nat) (s : Mach W) : Option (Mach W × MAct) :=
  (units[u]?).bind fun code => (code[l]?).bind fun lam => lam.block O u s

end Cora.Compile
