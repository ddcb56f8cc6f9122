import Verif.Model.Macro
/-
The interpreter: lib/eval.cora, the closures it makes (src/runtime.c:954-981) and the way it calls functions
(src/runtime.c:364-388 `builtinApply`). `none` is a trap or, for the functions with a bound, that the bound is exceeded.
-/
open Spec.Lang
namespace Cora.Interp

/-- values of an interpreted program. `clo`: a closure made by `make-closure-for-eval` (parameters, body, environment);
`prim`: what lib/eval.cora:5-20 puts into the global variable of a primitive; `pap`: made by `makeCurry`;
`native`: any other function or object -/
inductive Val where
  | int (n : Int)
  | bool (b : Bool)
  | nil
  | str (s : String)
  | sym (x : Sym)
  | cons (a d : Val)
  | clo (params body : Datum) (env : List (Datum × Val))
  | prim (p : String)
  | pap (f : Val) (args : List Val)
  | native (id arity : Nat)

/-- environments are association lists -/
abbrev Env := List (Datum × Val)

/-- a datum as a value -/
def ofDatum : Datum → Val
  | .int n => .int n
  | .bool b => .bool b
  | .nil => .nil
  | .str s => .str s
  | .sym x => .sym x
  | .cons a d => .cons (ofDatum a) (ofDatum d)

/-- the datum a value is, if there is no function in it -/
def toDatum : Val → Option Datum
  | .int n => some (.int n)
  | .bool b => some (.bool b)
  | .nil => some .nil
  | .str s => some (.str s)
  | .sym x => some (.sym x)
  | .cons a d =>
    match toDatum a, toDatum d with
    | some x, some y => some (.cons x y)
    | _, _ => none
  | _ => none

structure World (W : Type) where
  globals : Sym → Option Val
  rest : W

/-- what the interpreter depends on: the exports of packages, the value of `*imported*`, arithmetic and comparison of
functions, functions of the outside. `fixed` is not in the code: setting such a variable counts as a trap, so that
`fixed x = true` speaks about runs that do not set `x`; the interpreter as it is has `fixed = fun _ => false`. -/
structure Setting (W : Type) where
  ex : Macro.Exports
  imp : List String
  prim : String → List Val → W → Option (Val × W)
  native : Nat → List Val → World W → Option (Val × World W)
  fixed : Sym → Bool

variable {W : Type}

/-- src/runtime.c:204-220 `primSet` -/
def setGlobal (w : World W) (x : Sym) (v : Val) : World W :=
  { w with globals := fun y => if y = x then some v else w.globals y }

def outside (I : Setting W) (p : String) (args : List Val) (w : World W) : Option (Val × World W) :=
  (I.prim p args w.rest).map fun r => (r.1, { w with rest := r.2 })

/-- the primitives, called through their global variables (lib/eval.cora:5-20; src/runtime.c:203-234, 846-952;
src/types.c:57-88 for `car`, `cdr` of something that is no pair: undefined) -/
def prim (I : Setting W) (p : String) (args : List Val) (w : World W) : Option (Val × World W) :=
  match p, args with
  | "set", [.sym x, v] => if I.fixed x then none else some (v, setGlobal w x v)
  | "car", [.cons a _] => some (a, w)
  | "cdr", [.cons _ d] => some (d, w)
  | "cons", [a, d] => some (.cons a d, w)
  | "cons?", [.cons _ _] => some (.bool true, w)
  | "cons?", [_] => some (.bool false, w)
  | "=", [a, b] =>
    match toDatum a, toDatum b with
    | some x, some y => some (.bool (decide (x = y)), w)
    | none, none => outside I "=" [a, b] w
    | _, _ => some (.bool false, w)
  | "not", [.bool b] => some (.bool (!b), w)
  | "symbol?", [.sym _] => some (.bool true, w)
  | "symbol?", [_] => some (.bool false, w)
  | "integer?", [.int _] => some (.bool true, w)
  | "string?", [.str _] => some (.bool true, w)
  | "set", _ => none
  | "car", _ => none
  | "cdr", _ => none
  | "not", _ => none
  | p, args => outside I p args w

/-- lib/eval.cora:35-37 `lookup` -/
def lookup (x : Sym) : Env → Option Val
  | [] => none
  | (a, b) :: more => if .sym x = a then some b else lookup x more

/-- the elements of a list up to its end, as `builtinApply` and `applyClosureForEval` walk it -/
def elems : Datum → List Datum
  | .cons a d => a :: elems d
  | _ => []

/-- src/runtime.c:960-965: the parameters are put in front of the environment one by one -/
def extend (env : Env) : List Datum → List Val → Env
  | p :: ps, v :: vs => extend ((p, v) :: env) ps vs
  | _, _ => env

mutual
/-- lib/eval.cora:39-51 `eval` -/
def eval (I : Setting W) : Nat → Datum → Env → World W → Option (Val × World W)
  | 0, _, _, _ => none
  | n + 1, e, env, w =>
    match e with
    | .sym x =>
      match lookup x env with
      | some v => some (v, w)
      | none => (w.globals (Macro.lookupVar I.ex x "" I.imp)).map (·, w)
    | .cons (.sym (.named "quote")) (.cons d .nil) => some (ofDatum d, w)
    | .cons (.sym (.named "if")) (.cons a (.cons b (.cons c .nil))) => do
      let (u, w1) ← eval I n a env w
      match u with
      | .bool true => eval I n b env w1
      | _ => eval I n c env w1
    | .cons (.sym (.named "do")) (.cons a (.cons b .nil)) => do
      let (_, w1) ← eval I n a env w
      eval I n b env w1
    | .cons (.sym (.named "def")) (.cons x (.cons e .nil)) => do
      let (v, w1) ← eval I n e env w
      prim I "set" [ofDatum x, v] w1
    | .cons (.sym (.named "let")) (.cons x (.cons e (.cons b .nil))) => do
      let (v, w1) ← eval I n e env w
      eval I n b ((x, v) :: env) w1
    | .cons (.sym (.named "lambda")) (.cons params (.cons body .nil)) => some (.clo params body env, w)
    | .cons f args => do
      let (g, w1) ← eval I n f env w
      let (vs, w2) ← evalArgs I n args env w1
      apply I n g vs w2
    | lit => some (ofDatum lit, w)
/-- `(map (lambda (x) (eval x env)) args)`: left to right (init.cora:27-32) -/
def evalArgs (I : Setting W) : Nat → Datum → Env → World W → Option (List Val × World W)
  | 0, _, _, _ => none
  | n + 1, args, env, w =>
    match args with
    | .cons a r => do
      let (v, w1) ← eval I n a env w
      let (vs, w2) ← evalArgs I n r env w1
      some (v :: vs, w2)
    | _ => some ([], w)
/-- src/runtime.c:364-388 `builtinApply`: the number of arguments must be the number of parameters. A closure of the
interpreter has a frame of four slots (976): with more than three parameters the arguments are written behind it. -/
def apply (I : Setting W) : Nat → Val → List Val → World W → Option (Val × World W)
  | 0, _, _, _ => none
  | n + 1, f, vs, w =>
    match f with
    | .clo params body env =>
      if vs.length = (elems params).length ∧ vs.length ≤ 3 then eval I n body (extend env (elems params) vs) w else none
    | .prim p => if primArity p = some vs.length then prim I p vs w else none
    | .native id k => if vs.length = k then I.native id vs w else none
    | .pap f got => if vs = [] then none else apply I n f (got ++ vs) w
    | _ => none
end

end Cora.Interp
