import Verif.Model.CodeRun
/-
The machine that runs the text of generated C files: what the C compiler and `load-so` make of the bytes, and the loop of the
runtime with the functions of the files.

Simplification: the C compiler is the parser and the checks of Spec/CLang.lean and the meaning of statements in Model/CodeRun.lean.
-/
open Spec.Lang Spec.C
namespace Cora.Compile
variable {W : Type}

/-- what the header files declare and generated code uses: src/types.h, src/runtime.h -/
def headers : List Bytes :=
  ["Nil", "True", "False", "getBinding", "globalRef", "closureRef", "MAKE_NUMBER", "makeCString", "makeNative", "coraReturn",
    "coraCall", "coraCall0", "coraCall1", "coraCall2", "coraCall3", "coraCall4", "saveCont", "primSet", "PRIM_CAR", "PRIM_CDR",
    "makeCons", "PRIM_ISCONS", "PRIM_ADD", "PRIM_SUB", "PRIM_MUL", "primDiv", "PRIM_EQ", "PRIM_GT", "PRIM_LT", "primGenSym",
    "primIsSymbol", "primNot", "primIsNumber", "primIsString", "Binding", "sizeof", "malloc", "packageIDAlloc", "bindSymbol", "intern",
    "addPackage"].map txt

/-- a C file that has been compiled and loaded: the table that its entry function fills, its functions and the one that its entry
function starts -/
structure CFile where
  table : List Spec.Lang.Sym
  funs : Bytes → Option Nat
  bodies : List Body
  start : Nat

/-- lib/toc.cora:568-606, src/runtime.c:325-352 `load-so`: the text is compiled, with the header files, and loaded. `none`: the C
compiler refuses the text, or the entry function fails. -/
def readFile (text : Bytes) : Option CFile := do
  let file ← Spec.C.parse text
  if valid headers file then
    let (table, start) ← loadFile file
    some ⟨table, funNumber file, (functions file).reverse.map (·.2), start⟩
  else none

/-- function `l` of file `u` is called -/
def textBlock (O : Outside W) (files : List Bytes) (u l : Nat) (s : Mach W) : Option (Mach W × MAct) := do
  let text ← files[u]?
  let file ← readFile text
  let body ← file.bodies[l]?
  runBody O ⟨u, file.table, file.funs⟩ s body

/-- src/runtime.c:69-86 `coraRun`, 95-117, 149-171 (`coraCall`, `coraDispatch`), as `go` in Model/CompileMachine.lean, with the
functions of the C files `files` -/
def goText (O : Outside W) (files : List Bytes) : Nat → Mach W → Option MAct → Option (Mach W)
  | 0, _, _ => none
  | n + 1, s, none =>
    match s.ctx.fn with
    | .exit => some s
    | .code u l =>
      match textBlock O files u l s with
      | some (s, a) => goText O files n s (some a)
      | none => none
    | .prim p =>
      match primArity p with
      | some k =>
        match cprim O p (readAt s.stack (s.ctx.bp + 1) k) s.world with
        | some (v, w) => goText O files n { s with world := w } (some (.ret v))
        | none => none
      | none => none
    | .native id k =>
      match O.native id (readAt s.stack (s.ctx.bp + 1) k) s.world with
      | some (v, w) => goText O files n { s with world := w } (some (.ret v))
      | none => none
    | .curry =>
      match curryBlock s with
      | some s => goText O files n s none
      | none => none
  | n + 1, s, some (.ret v) =>
    match s.ret v with
    | some s => goText O files n s none
    | none => none
  | n + 1, s, some (.call f args) =>
    match f.arity with
    | some a =>
      if args.length = a then goText O files n (s.enter f args) none
      else if args.length = 0 then goText O files n s (some (.ret f))
      else if args.length < a then goText O files n s (some (.ret (.pap f args)))
      else
        match goText O files n (s.enter f (args.take a)).pushExit none with
        | some s => goText O files n s (some (.call s.res (args.drop a)))
        | none => none
    | none => none

end Cora.Compile
