import Verif.Model.CompileRun
/-
The machine that runs the output of the compiler: what the C code made by the code generator (lib/toc.cora:272-442,
540-566) does with the registers and with the call stack of the runtime.

Simplifications. The C text is not part of this model, only the statements it consists of (for the text see Model/CodeGen.lean and
Model/CodeMachine.lean); the local variables of a C block are
an association list. The register stack is one unbounded array; that the segments of the runtime behave like that is the
subject of other properties (Model/VM.lean). There is no garbage collector and no `try`. Other builtin functions
(`Outside.native`) work in one step and call no functions. `go` takes a number of steps; the code has no such bound.
-/
open Spec.Lang
namespace Cora.Compile
variable {W : Type}

/-- lib/toc.cora:353-367: what `makeNative` is given: the C function, as number of the compiled file and label, and
the size of its frame -/
structure MCode where
  unit : Nat
  label : Nat
  nframe : Nat

/-- values of the machine -/
abbrev MVal := CVal MCode

/-- src/types.h:139-147 `nframe` of a function object; src/runtime.c:1021, 138 -/
def nframeOf : MVal → Nat
  | .clo _ c _ => c.nframe
  | .prim p => (primArity p).getD 0 + 1
  | .native _ n => n + 1
  | .pap f _ => nframeOf f
  | _ => 0

/-- function pointers: compiled code, builtin functions, `callCurry` and the null pointer -/
inductive Fn where
  | code (unit label : Nat)
  | prim (p : String)
  | native (id arity : Nat)
  | curry
  | exit

/-- src/types.h:139-147 `fn` of a function object -/
def fnOf : MVal → Fn
  | .clo _ c _ => .code c.unit c.label
  | .prim p => .prim p
  | .native id n => .native id n
  | .pap _ _ => .curry
  | _ => .exit

/-- src/runtime.h:13-20 -/
structure MFrame where
  fn : Fn
  label : Nat
  bp : Nat
  sp : Nat

/-- src/runtime.h:41-57 -/
structure Mach (W : Type) where
  ctx : MFrame
  frames : List MFrame
  stack : Nat → MVal
  res : MVal
  world : CWorld MCode W

/-- write consecutive registers -/
def storeAt (stack : Nat → MVal) (a : Nat) (vs : List MVal) : Nat → MVal :=
  fun p => if a ≤ p ∧ p < a + vs.length then vs.getD (p - a) .nil else stack p

/-- read consecutive registers -/
def readAt (stack : Nat → MVal) (a n : Nat) : List MVal := (List.range n).map fun i => stack (a + i)

/-- what a block ends with: `coraReturn` or one of the `coraCall`s -/
inductive MAct where
  | ret (v : MVal)
  | call (f : MVal) (args : List MVal)

/-- lib/toc.cora:307-310 `closureRef(R[0], i)`: the captured variables of the function in register 0 -/
def capturedOf : MVal → List MVal
  | .clo _ _ caps => caps
  | _ => []

/-- lib/toc.cora:301-326, 353-367: an operand in compiled file `unit` -/
def evalC (unit : Nat) (caps : List MVal) (env : CEnv MCode) (w : CWorld MCode W) : CSmp → Option MVal
  | .const d => some (cval d)
  | .global x => w.globals x
  | .ref r => r.get env caps
  | .closure label nargs nframe frees => (getRefs env caps frees).map fun vs => .clo nargs ⟨unit, label, nframe⟩ vs

/-- operands -/
def evalCs (unit : Nat) (caps : List MVal) (env : CEnv MCode) (w : CWorld MCode W) : List CSmp → Option (List MVal)
  | [] => some []
  | e :: es =>
    match evalC unit caps env w e, evalCs unit caps env w es with
    | some v, some vs => some (v :: vs)
    | _, _ => none

/-- lib/toc.cora:327-414: run the statements of a block, up to `coraReturn` or `coraCall` -/
def execC (O : Outside W) (unit : Nat) : CStm → CEnv MCode → Mach W → Option (Mach W × MAct)
  | .ret e, env, s => (evalC unit (capturedOf (s.stack s.ctx.bp)) env s.world e).map fun v => (s, .ret v)
  | .tail f args, env, s =>
    match evalC unit (capturedOf (s.stack s.ctx.bp)) env s.world f, evalCs unit (capturedOf (s.stack s.ctx.bp)) env s.world args with
    | some g, some vs => some ({ s with ctx := { s.ctx with sp := s.ctx.bp } }, .call g vs)
    | _, _ => none
  | .call f args label live, env, s =>
    -- `save-to-frame`, `saveCont`
    match getRefs env [] (live.map Ref.loc) with
    | some us =>
      let s := { s with stack := storeAt s.stack (s.ctx.bp + 1) us, frames := { s.ctx with label := label } :: s.frames }
      match evalC unit (capturedOf (s.stack s.ctx.bp)) env s.world f, evalCs unit (capturedOf (s.stack s.ctx.bp)) env s.world args with
      | some g, some vs => some (s, .call g vs)
      | _, _ => none
    | none => none
  | .bind x e k, env, s =>
    match evalC unit (capturedOf (s.stack s.ctx.bp)) env s.world e with
    | some v => execC O unit k ((x, v) :: env) s
    | none => none
  | .prim x p args k, env, s =>
    match evalCs unit (capturedOf (s.stack s.ctx.bp)) env s.world args with
    | some vs =>
      match cprim O p vs s.world with
      | some (v, w) => execC O unit k ((x, v) :: env) { s with world := w }
      | none => none
    | none => none
  | .seq e k, env, s =>
    match evalC unit (capturedOf (s.stack s.ctx.bp)) env s.world e with
    | some _ => execC O unit k env s
    | none => none
  | .ite e a b, env, s =>
    match evalC unit (capturedOf (s.stack s.ctx.bp)) env s.world e with
    | some v => if v.isTrue then execC O unit a env s else execC O unit b env s
    | none => none

/-- lib/toc.cora:540-566 `generate-toplevel-lambda`, 434-442 `generate-cont`: case `label` of the C function of `l` -/
def Lam.block (O : Outside W) (unit : Nat) (l : Lam) (s : Mach W) : Option (Mach W × MAct) :=
  match s.ctx.label with
  | 0 => execC O unit l.body (l.params.zip (readAt s.stack (s.ctx.bp + 1) l.params.length)).reverse s
  | i + 1 =>
    match l.conts[i]? with
    | some c => execC O unit c.body ((c.val, s.res) :: c.live.zip (readAt s.stack (s.ctx.bp + 1) c.live.length)) s
    | none => none

/-- src/runtime.c:119-129 `callCurry`: the partial application in register 0 is replaced by the function and all
arguments. (`required` arguments are moved up by `captured - 1` registers.) -/
def curryBlock (s : Mach W) : Option (Mach W) :=
  match s.stack s.ctx.bp with
  | .pap f got =>
    match (CVal.pap f got).arity with
    | some n =>
      some { s with
        stack := storeAt s.stack s.ctx.bp (f :: got ++ readAt s.stack (s.ctx.bp + 1) n)
        ctx := { s.ctx with fn := fnOf f, label := 0 } }
    | none => none
  | _ => none

/-- src/runtime.h:74-84 `coraReturn` -/
def Mach.ret (s : Mach W) (v : MVal) : Option (Mach W) :=
  match s.frames with
  | f :: fs => some { s with res := v, ctx := f, frames := fs }
  | [] => none

/-- src/runtime.h:91-173, src/runtime.c:95-117: the frame of the called function -/
def Mach.enter (s : Mach W) (f : MVal) (args : List MVal) : Mach W :=
  { s with
    ctx := ⟨fnOf f, 0, s.ctx.sp, s.ctx.sp + nframeOf f⟩
    stack := storeAt s.stack s.ctx.sp (f :: args) }

/-- src/runtime.c:70-77: the frame that ends `coraRun` -/
def Mach.pushExit (s : Mach W) : Mach W :=
  { s with frames := { s.ctx with fn := .exit, label := 0 } :: s.frames }

/-- src/runtime.c:325-352 `builtinLoadSo`: the entry function of compiled file `unit` (lib/toc.cora:568-592 `generate-entry`)
makes the toplevel function, which has the label `label`, the running function, in the frame of `load-so` itself; then
`coraRun` is called. (`dlopen`, and the table of symbols, are not modelled.) -/
def Mach.loadSo (s : Mach W) (unit label : Nat) : Mach W :=
  let s := s.pushExit
  { s with ctx := { s.ctx with fn := .code unit label, label := 0 } }

/-- src/runtime.c:69-86 `coraRun`, with src/runtime.c:95-117, 149-171 (`coraCall`, `coraDispatch`) for an action that is pending.
`units`: the compiled files that are loaded. The machine stops at the null function. -/
def go (O : Outside W) (units : List (List Lam)) : Nat → Mach W → Option MAct → Option (Mach W)
  | 0, _, _ => none
  | n + 1, s, none =>
    match s.ctx.fn with
    | .exit => some s
    | .code u l =>
      match units[u]? with
      | some code =>
        match code[l]? with
        | some lam =>
          match lam.block O u s with
          | some (s, a) => go O units n s (some a)
          | none => none
        | none => none
      | none => none
    | .prim p =>
      match primArity p with
      | some k =>
        match cprim O p (readAt s.stack (s.ctx.bp + 1) k) s.world with
        | some (v, w) => go O units n { s with world := w } (some (.ret v))
        | none => none
      | none => none
    | .native id k =>
      match O.native id (readAt s.stack (s.ctx.bp + 1) k) s.world with
      | some (v, w) => go O units n { s with world := w } (some (.ret v))
      | none => none
    | .curry =>
      match curryBlock s with
      | some s => go O units n s none
      | none => none
  | n + 1, s, some (.ret v) =>
    match s.ret v with
    | some s => go O units n s none
    | none => none
  | n + 1, s, some (.call f args) =>
    match f.arity with
    | some a =>
      if args.length = a then go O units n (s.enter f args) none
      else if args.length = 0 then go O units n s (some (.ret f))
      else if args.length < a then go O units n s (some (.ret (.pap f args)))
      else
        -- the nested `coraRun`; then the next call
        match go O units n (s.enter f (args.take a)).pushExit none with
        | some s => go O units n s (some (.call s.res (args.drop a)))
        | none => none
    | none => none

end Cora.Compile
