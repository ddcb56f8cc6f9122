/-
The core language: its forms, its values and what evaluating a form does. Lexical scope, call by value, operands left to
right, curried application. Written down from the language description (README.md, doc/), without reference to the
compiler, the interpreter or the macros.
-/
namespace Spec.Lang

/-- a symbol: written in the program, or made by `gensym` -/
inductive Sym where
  | named (s : String)
  | gen (n : Nat)
  deriving DecidableEq, Repr

/-- data that programs are written in -/
inductive Datum where
  | int (n : Int)
  | bool (b : Bool)
  | nil
  | str (s : String)
  | sym (x : Sym)
  | cons (a d : Datum)
  deriving DecidableEq, Repr

/-- a proper list -/
def Datum.list : List Datum → Datum
  | [] => .nil
  | x :: r => .cons x (Datum.list r)

/-- a symbol of the program -/
abbrev kw (s : String) : Datum := .sym (.named s)

/-- literals that stand for themselves -/
inductive Const where
  | int (n : Int)
  | bool (b : Bool)
  | nil
  | str (s : String)
  deriving DecidableEq, Repr

/-- the core forms -/
inductive Core where
  | lit (c : Const)
  | quote (d : Datum)
  | var (x : Sym)
  | lam (ps : List Sym) (body : Core)
  | ite (a b c : Core)
  | seq (a b : Core)
  | bind (x : Sym) (e b : Core)
  | app (f : Core) (args : List Core)

def Const.datum : Const → Datum
  | .int n => .int n
  | .bool b => .bool b
  | .nil => .nil
  | .str s => .str s

mutual
/-- how a form is written -/
def Core.form : Core → Datum
  | .lit c => c.datum
  | .quote d => .list [kw "quote", d]
  | .var x => .sym x
  | .lam ps b => .list [kw "lambda", .list (ps.map .sym), b.form]
  | .ite a b c => .list [kw "if", a.form, b.form, c.form]
  | .seq a b => .list [kw "do", a.form, b.form]
  | .bind x e b => .list [kw "let", .sym x, e.form, b.form]
  | .app f args => .cons f.form (.list (Core.forms args))
def Core.forms : List Core → List Datum
  | [] => []
  | c :: r => c.form :: Core.forms r
end

/-- values. `prim` is a primitive as a function, `pap` a function that waits for more arguments, `native` a function
or object of the outside. -/
inductive Val where
  | int (n : Int)
  | bool (b : Bool)
  | nil
  | str (s : String)
  | sym (x : Sym)
  | cons (a d : Val)
  | clo (ps : List Sym) (body : Core) (env : List (Sym × Val))
  | prim (p : String)
  | pap (f : Val) (args : List Val)
  | native (id arity : Nat)

abbrev Env := List (Sym × Val)

/-- a datum as a value -/
def Datum.val : Datum → Val
  | .int n => .int n
  | .bool b => .bool b
  | .nil => .nil
  | .str s => .str s
  | .sym x => .sym x
  | .cons a d => .cons a.val d.val

/-- the datum a value is, if it contains no function -/
def Val.datum : Val → Option Datum
  | .int n => some (.int n)
  | .bool b => some (.bool b)
  | .nil => some .nil
  | .str s => some (.str s)
  | .sym x => some (.sym x)
  | .cons a d =>
    match a.datum, d.datum with
    | some x, some y => some (.cons x y)
    | _, _ => none
  | _ => none

mutual
/-- the variables that occur free in a form -/
def Core.fv : Core → List Sym
  | .lit _ => []
  | .quote _ => []
  | .var x => [x]
  | .lam ps b => b.fv.filter fun x => decide (x ∉ ps)
  | .ite a b c => a.fv ++ b.fv ++ c.fv
  | .seq a b => a.fv ++ b.fv
  | .bind x e b => e.fv ++ b.fv.filter fun y => decide (y ≠ x)
  | .app f args => f.fv ++ Core.fvs args
def Core.fvs : List Core → List Sym
  | [] => []
  | c :: r => c.fv ++ Core.fvs r
end

/-- the innermost binding of a variable -/
def find (x : Sym) : Env → Option Val
  | [] => none
  | (y, v) :: r => if y = x then some v else find x r

/-- the bindings of the given variables -/
def capture (xs : List Sym) (env : Env) : Env := xs.filterMap fun x => (find x env).map fun v => (x, v)

/-- global variables and everything else a program can change -/
structure World (W : Type) where
  globals : Sym → Option Val
  rest : W

/-- what the core language leaves open: the meaning of arithmetic, comparison of values with functions in them, and
functions of the outside -/
structure Ext (W : Type) where
  prim : String → List Val → W → Option (Val × W)
  native : Nat → List Val → World W → Option (Val × World W)

variable {W : Type}

/-- the primitives and how many operands they take -/
def primArity : String → Option Nat
  | "set" => some 2
  | "car" => some 1
  | "cdr" => some 1
  | "cons" => some 2
  | "cons?" => some 1
  | "+" => some 2
  | "-" => some 2
  | "*" => some 2
  | "/" => some 2
  | "=" => some 2
  | ">" => some 2
  | "<" => some 2
  | "gensym" => some 0
  | "symbol?" => some 1
  | "not" => some 1
  | "integer?" => some 1
  | "string?" => some 1
  | _ => none

/-- set a global variable -/
def World.set (w : World W) (x : Sym) (v : Val) : World W :=
  { w with globals := fun y => if y = x then some v else w.globals y }

/-- one of the primitives left open -/
def outside (E : Ext W) (p : String) (args : List Val) (w : World W) : Option (Val × World W) :=
  (E.prim p args w.rest).map fun r => (r.1, { w with rest := r.2 })

/-- the primitives. `none`: an error. -/
def primApply (E : Ext W) (p : String) (args : List Val) (w : World W) : Option (Val × World W) :=
  match p, args with
  | "set", [.sym x, v] => some (v, w.set x v)
  | "car", [.cons a _] => some (a, w)
  | "cdr", [.cons _ d] => some (d, w)
  | "cons", [a, d] => some (.cons a d, w)
  | "cons?", [.cons _ _] => some (.bool true, w)
  | "cons?", [_] => some (.bool false, w)
  | "=", [a, b] =>
    match a.datum, b.datum with
    | some x, some y => some (.bool (decide (x = y)), w)
    | none, none => outside E "=" [a, b] w
    | _, _ => some (.bool false, w)
  | "not", [.bool b] => some (.bool (!b), w)
  | "symbol?", [.sym _] => some (.bool true, w)
  | "symbol?", [_] => some (.bool false, w)
  | "integer?", [.int _] => some (.bool true, w)
  | "string?", [.str _] => some (.bool true, w)
  | "set", _ => none
  | "car", _ => none
  | "cdr", _ => none
  | "not", _ => none
  | p, args => outside E p args w

/-- the primitive that a function position names, if it is not bound locally -/
def Core.primOf (env : Env) : Core → Option String
  | .var (.named p) => if find (.named p) env = none ∧ (primArity p).isSome then some p else none
  | _ => none

/-- how many arguments a function takes -/
def Val.arity : Val → Option Nat
  | .clo ps _ _ => some ps.length
  | .prim p => primArity p
  | .native _ n => some n
  | _ => none

mutual
/-- `Eval E env w e v w'`: in the environment `env` and world `w` the form `e` has the value `v` and leaves the world
`w'`. Only the value `true` counts as true. A function remembers the bindings of its free variables. -/
inductive Eval (E : Ext W) : Env → World W → Core → Val → World W → Prop where
  | lit (env w c) : Eval E env w (.lit c) c.datum.val w
  | quote (env w d) : Eval E env w (.quote d) d.val w
  | local (env w x v) : find x env = some v → Eval E env w (.var x) v w
  | global (env w x v) : find x env = none → w.globals x = some v → Eval E env w (.var x) v w
  | lam (env w ps b) : Eval E env w (.lam ps b) (.clo ps b (capture (Core.lam ps b).fv env)) w
  | then (env w a b c v w1 w2) : Eval E env w a (.bool true) w1 → Eval E env w1 b v w2 →
      Eval E env w (.ite a b c) v w2
  | else (env w a b c u v w1 w2) : Eval E env w a u w1 → u ≠ .bool true → Eval E env w1 c v w2 →
      Eval E env w (.ite a b c) v w2
  | seq (env w a b u v w1 w2) : Eval E env w a u w1 → Eval E env w1 b v w2 → Eval E env w (.seq a b) v w2
  | bind (env w x e b u v w1 w2) : Eval E env w e u w1 → Eval E ((x, u) :: env) w1 b v w2 →
      Eval E env w (.bind x e b) v w2
  | prim (env w f args p vs v w1 w2) : f.primOf env = some p → EvalArgs E env w args vs w1 →
      Apply E w1 (.prim p) vs v w2 → Eval E env w (.app f args) v w2
  | app (env w f args g vs v w1 w2 w3) : f.primOf env = none → Eval E env w f g w1 →
      EvalArgs E env w1 args vs w2 → Apply E w2 g vs v w3 → Eval E env w (.app f args) v w3
/-- operands, left to right -/
inductive EvalArgs (E : Ext W) : Env → World W → List Core → List Val → World W → Prop where
  | nil (env w) : EvalArgs E env w [] [] w
  | cons (env w e es v vs w1 w2) : Eval E env w e v w1 → EvalArgs E env w1 es vs w2 →
      EvalArgs E env w (e :: es) (v :: vs) w2
/-- application of a function to any number of arguments -/
inductive Apply (E : Ext W) : World W → Val → List Val → Val → World W → Prop where
  | clo (w ps b env args v w1) : args.length = ps.length →
      Eval E ((ps.zip args).reverse ++ env) w b v w1 → Apply E w (.clo ps b env) args v w1
  | prim (w p args v w1) : primArity p = some args.length → primApply E p args w = some (v, w1) →
      Apply E w (.prim p) args v w1
  | native (w id n args v w1) : args.length = n → E.native id args w = some (v, w1) →
      Apply E w (.native id n) args v w1
  | none (w f n) : f.arity = some n → 0 < n → Apply E w f [] f w
  | less (w f n args) : f.arity = some n → 0 < args.length → args.length < n → Apply E w f args (.pap f args) w
  | more (w f n args g v w1 w2) : f.arity = some n → n < args.length → Apply E w f (args.take n) g w1 →
      Apply E w1 g (args.drop n) v w2 → Apply E w f args v w2
  | pap (w f got args v w1) : args ≠ [] → Apply E w f (got ++ args) v w1 → Apply E w (.pap f got) args v w1
  | papNone (w f got) : Apply E w (.pap f got) [] (.pap f got) w
end

end Spec.Lang
