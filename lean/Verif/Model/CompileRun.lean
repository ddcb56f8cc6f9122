import Verif.Model.Compile
/-
What the intermediate programs of the compiler (Model/Compile.lean) mean when they run: values, primitives, application
and, for each language, an interpreter. The number that the interpreters take bounds the depth of calls; the code has
no such bound.

Values of compiled programs are those of the runtime, seen abstractly: `clo nargs code caps` is the function object made by
`makeNative` (src/types.c) from lib/toc.cora:353-367, `pap` the one made by `makeCurry` (src/runtime.c:131-147). `code` is what
the language at hand takes for the code of a function.
-/
open Spec.Lang
namespace Cora.Compile

/-- values -/
inductive CVal (B : Type) where
  | int (n : Int)
  | bool (b : Bool)
  | nil
  | str (s : String)
  | sym (x : Sym)
  | cons (a d : CVal B)
  | clo (nargs : Nat) (code : B) (caps : List (CVal B))
  | prim (p : String)
  | pap (f : CVal B) (args : List (CVal B))
  | native (id arity : Nat)

variable {B W : Type}

/-- lib/toc.cora:311-326: a constant. The code generator has no case for pairs (its `cond` fails); the model gives
them their value. -/
def cval : Datum → CVal B
  | .int n => .int n
  | .bool b => .bool b
  | .nil => .nil
  | .str s => .str s
  | .sym x => .sym x
  | .cons a d => .cons (cval a) (cval d)

/-- the datum a value is, if it contains no function -/
def CVal.datum : CVal B → Option Datum
  | .int n => some (.int n)
  | .bool b => some (.bool b)
  | .nil => some .nil
  | .str s => some (.str s)
  | .sym x => some (.sym x)
  | .cons a d =>
    match a.datum, d.datum with
    | some x, some y => some (.cons x y)
    | _, _ => none
  | _ => none

/-- global variables and everything else -/
structure CWorld (B W : Type) where
  globals : Sym → Option (CVal B)
  rest : W

/-- what is outside of the compiled program: primitives on other values, and native functions. Both work for any kind
of code: they cannot look into functions or call them. -/
structure Outside (W : Type) where
  prim : {B : Type} → String → List (CVal B) → W → Option (CVal B × W)
  native : {B : Type} → Nat → List (CVal B) → CWorld B W → Option (CVal B × CWorld B W)

/-- src/runtime.c `primSet` -/
def CWorld.set (w : CWorld B W) (x : Sym) (v : CVal B) : CWorld B W :=
  { w with globals := fun y => if y = x then some v else w.globals y }

/-- one of the primitives left open -/
def coutside (O : Outside W) (p : String) (args : List (CVal B)) (w : CWorld B W) : Option (CVal B × CWorld B W) :=
  (O.prim p args w.rest).map fun r => (r.1, { w with rest := r.2 })

/-- the primitives of lib/toc.cora:29-33, as in the definition of the language (Spec/Lang.lean). That the C functions do
this is the subject of other properties. -/
def cprim (O : Outside W) (p : String) (args : List (CVal B)) (w : CWorld B W) : Option (CVal B × CWorld B W) :=
  match p, args with
  | "set", [.sym x, v] => some (v, w.set x v)
  | "car", [.cons a _] => some (a, w)
  | "cdr", [.cons _ d] => some (d, w)
  | "cons", [a, d] => some (.cons a d, w)
  | "cons?", [.cons _ _] => some (.bool true, w)
  | "cons?", [_] => some (.bool false, w)
  | "=", [a, b] =>
    match a.datum, b.datum with
    | some x, some y => some (.bool (decide (x = y)), w)
    | none, none => coutside O "=" [a, b] w
    | _, _ => some (.bool false, w)
  | "not", [.bool b] => some (.bool (!b), w)
  | "symbol?", [.sym _] => some (.bool true, w)
  | "symbol?", [_] => some (.bool false, w)
  | "integer?", [.int _] => some (.bool true, w)
  | "string?", [.str _] => some (.bool true, w)
  | "set", _ => none
  | "car", _ => none
  | "cdr", _ => none
  | "not", _ => none
  | p, args => coutside O p args w

/-- how many arguments a function takes (`required`); src/runtime.c:131-147 for partial applications -/
def CVal.arity : CVal B → Option Nat
  | .clo n _ _ => some n
  | .prim p => primArity p
  | .native _ n => some n
  | .pap f got => f.arity.map fun n => n - got.length
  | _ => none

/-- calling a function object: the type of what the interpreters below get to make calls -/
abbrev Call (B W : Type) := CVal B → List (CVal B) → CWorld B W → Option (CVal B × CWorld B W)

/-- src/runtime.h:91-173: a call with exactly the arguments the function takes; for partial applications
src/runtime.c:119-129 (`callCurry`). The number of arguments is that of the parameters, because of the assertion in
`makeCurry` (src/runtime.c:137); otherwise `none`. -/
def exact (O : Outside W) (enter : B → List (CVal B) → List (CVal B) → CWorld B W → Option (CVal B × CWorld B W)) :
    CVal B → List (CVal B) → CWorld B W → Option (CVal B × CWorld B W)
  | .clo n c caps, args, w => if args.length = n then enter c caps args w else none
  | .prim p, args, w => if primArity p = some args.length then cprim O p args w else none
  | .native id n, args, w => if args.length = n then O.native id args w else none
  | .pap f got, args, w => exact O enter f (got ++ args) w
  | _, _, _ => none

/-- src/runtime.c:95-171: a call with any number of arguments: currying and over-application. `run` is the interpreter
for the body of a closure. -/
def apply (O : Outside W) (run : Call B W → B → List (CVal B) → List (CVal B) → CWorld B W → Option (CVal B × CWorld B W)) :
    Nat → Call B W
  | 0, _, _, _ => none
  | n + 1, f, args, w =>
    match f.arity with
    | some a =>
      if args.length = a then exact O (run (apply O run n)) f args w
      else if args.length = 0 then some (f, w)
      else if args.length < a then some (.pap f args, w)
      else
        match exact O (run (apply O run n)) f (args.take a) w with
        | some (g, w) => apply O run n g (args.drop a) w
        | none => none
    | none => none

/-- local variables -/
abbrev CEnv (B : Type) := List (Sym × CVal B)

/-- the innermost binding -/
def cfind (x : Sym) : CEnv B → Option (CVal B)
  | [] => none
  | (y, v) :: r => if y = x then some v else cfind x r

/-- lib/toc.cora:301, 307-310: read a reference -/
def Ref.get (env : CEnv B) (caps : List (CVal B)) : Ref → Option (CVal B)
  | .loc x => cfind x env
  | .cap i => caps[i]?

/-- read several references -/
def getRefs (env : CEnv B) (caps : List (CVal B)) : List Ref → Option (List (CVal B))
  | [] => some []
  | r :: rs =>
    match r.get env caps, getRefs env caps rs with
    | some v, some vs => some (v :: vs)
    | _, _ => none

/-- src/types.h: `True == x` -/
def CVal.isTrue : CVal B → Bool
  | .bool true => true
  | _ => false

/-! ### after closure conversion -/

/-- the code of a function: parameters and body -/
abbrev Code2 := List Sym × Exp

/-- the result of an expression: a value, or a global variable still to be read -/
inductive COperand (B : Type) where
  | now (v : CVal B)
  | later (x : Sym)

/-- read it -/
def COperand.get (w : CWorld B W) : COperand B → Option (CVal B)
  | .now v => some v
  | .later x => w.globals x

/-- read several -/
def csettle (w : CWorld B W) : List (COperand B) → Option (List (CVal B))
  | [] => some []
  | o :: r =>
    match o.get w, csettle w r with
    | some v, some vs => some (v :: vs)
    | _, _ => none

mutual
/-- the meaning of the programs after `closure-convert`: eager evaluation, but a global variable is read when its
value is needed, since the later passes leave it in place -/
def evalE (O : Outside W) (ap : Call Code2 W) (caps : List (CVal Code2)) :
    Exp → CEnv Code2 → CWorld Code2 W → Option (COperand Code2 × CWorld Code2 W)
  | .const d, _, w => some (.now (cval d), w)
  | .global x, _, w => some (.later x, w)
  | .ref r, env, w => (r.get env caps).map fun v => (.now v, w)
  | .closure ps body frees, env, w => (getRefs env caps frees).map fun vs => (.now (.clo ps.length (ps, body) vs), w)
  | .ite a b c, env, w =>
    match evalE O ap caps a env w with
    | some (o, w) =>
      match o.get w with
      | some v => if v.isTrue then evalE O ap caps b env w else evalE O ap caps c env w
      | none => none
    | none => none
  | .seq a b, env, w =>
    match evalE O ap caps a env w with
    | some (o, w) =>
      match o.get w with
      | some _ => evalE O ap caps b env w
      | none => none
    | none => none
  | .bind x e b, env, w =>
    match evalE O ap caps e env w with
    | some (o, w) =>
      match o.get w with
      | some v => evalE O ap caps b ((x, v) :: env) w
      | none => none
    | none => none
  | .prim p args, env, w =>
    match evalOs O ap caps args env w with
    | some (os, w) =>
      match csettle w os with
      | some vs => (cprim O p vs w).map fun r => (.now r.1, r.2)
      | none => none
    | none => none
  | .app f args, env, w =>
    match evalE O ap caps f env w with
    | some (o, w) =>
      match evalOs O ap caps args env w with
      | some (os, w) =>
        match csettle w (o :: os) with
        | some (g :: vs) => (ap g vs w).map fun r => (.now r.1, r.2)
        | _ => none
      | none => none
    | none => none
def evalOs (O : Outside W) (ap : Call Code2 W) (caps : List (CVal Code2)) :
    List Exp → CEnv Code2 → CWorld Code2 W → Option (List (COperand Code2) × CWorld Code2 W)
  | [], _, w => some ([], w)
  | e :: es, env, w =>
    match evalE O ap caps e env w with
    | some (o, w) =>
      match evalOs O ap caps es env w with
      | some (os, w) => some (o :: os, w)
      | none => none
    | none => none
end

/-- the value of the result -/
def finish (r : Option (COperand B × CWorld B W)) : Option (CVal B × CWorld B W) :=
  match r with
  | some (o, w) => (o.get w).map fun v => (v, w)
  | none => none

/-- run the body of a function -/
def run2 (O : Outside W) (ap : Call Code2 W) (c : Code2) (caps args : List (CVal Code2)) (w : CWorld Code2 W) :
    Option (CVal Code2 × CWorld Code2 W) :=
  finish (evalE O ap caps c.2 (c.1.zip args).reverse w)

/-! ### after tailify, before and after liveness analysis -/

/-- the code of a function: parameters and body -/
abbrev Code3 := List Sym × Stm

/-- lib/toc.cora:301-326, 353-367: an operand -/
def evalSmp (caps : List (CVal Code3)) (env : CEnv Code3) (w : CWorld Code3 W) : Smp → Option (CVal Code3)
  | .const d => some (cval d)
  | .global x => w.globals x
  | .ref r => r.get env caps
  | .closure ps body frees => (getRefs env caps frees).map fun vs => .clo ps.length (ps, body) vs

/-- operands -/
def evalSmps (caps : List (CVal Code3)) (env : CEnv Code3) (w : CWorld Code3 W) : List Smp → Option (List (CVal Code3))
  | [] => some []
  | e :: es =>
    match evalSmp caps env w e, evalSmps caps env w es with
    | some v, some vs => some (v :: vs)
    | _, _ => none

/-- lib/toc.cora:272-292 `save-to-frame` and `recover-from-frame`: of the local variables only those listed are there
when the continuation runs -/
def restrict (live : List Sym) (env : CEnv B) : CEnv B :=
  live.filterMap fun x => (cfind x env).map fun v => (x, v)

/-- the local variables that a continuation has: before `liveness-analyze` (`saves` is false) all of them -/
def surviving (saves : Bool) (live : List Sym) (env : CEnv B) : CEnv B :=
  if saves then restrict live env else env

/-- the meaning of the programs after `tailify` (`saves` is false) and after `liveness-analyze` (`saves` is true):
lib/toc.cora:327-414, 434-442 -/
def runStm (saves : Bool) (O : Outside W) (ap : Call Code3 W) (caps : List (CVal Code3)) :
    Stm → CEnv Code3 → CWorld Code3 W → Option (CVal Code3 × CWorld Code3 W)
  | .ret e, env, w => (evalSmp caps env w e).map fun v => (v, w)
  | .tail f args, env, w =>
    match evalSmp caps env w f, evalSmps caps env w args with
    | some g, some vs => ap g vs w
    | _, _ => none
  | .call f args val k live, env, w =>
    match evalSmp caps env w f, evalSmps caps env w args with
    | some g, some vs =>
      match ap g vs w with
      | some (u, w) => runStm saves O ap caps k ((val, u) :: surviving saves live env) w
      | none => none
    | _, _ => none
  | .bind x e s, env, w =>
    match evalSmp caps env w e with
    | some v => runStm saves O ap caps s ((x, v) :: env) w
    | none => none
  | .prim x p args s, env, w =>
    match evalSmps caps env w args with
    | some vs =>
      match cprim O p vs w with
      | some (v, w) => runStm saves O ap caps s ((x, v) :: env) w
      | none => none
    | none => none
  | .seq e s, env, w =>
    match evalSmp caps env w e with
    | some _ => runStm saves O ap caps s env w
    | none => none
  | .ite e a b, env, w =>
    match evalSmp caps env w e with
    | some v => if v.isTrue then runStm saves O ap caps a env w else runStm saves O ap caps b env w
    | none => none

/-- run the body of a function -/
def run3 (saves : Bool) (O : Outside W) (ap : Call Code3 W) (c : Code3) (caps args : List (CVal Code3)) (w : CWorld Code3 W) :
    Option (CVal Code3 × CWorld Code3 W) :=
  runStm saves O ap caps c.2 (c.1.zip args).reverse w

end Cora.Compile
