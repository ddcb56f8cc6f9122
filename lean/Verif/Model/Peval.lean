import Verif.Spec.Lang
/-
The partial evaluator, /repo/lib/peval.cora.

It works on forms as lists; here they are the core forms that these lists stand for. So no variable may have the name of a
keyword. Numbers are integers; folding `+` and `-` calls the same primitives that the program would call.
-/
namespace Cora.Peval
open Spec.Lang

/-- lib/peval.cora:5-14 `const-symbol?` and `const?` -/
def isConst : Core → Bool
  | .lit _ => true
  | .quote _ => true
  | _ => false

/-- a call of a function by its name -/
abbrev call (f : String) (args : List Core) : Core := .app (.var (.named f)) args

/-- lib/peval.cora:16-20 `const-list?` -/
def isConstList : Core → Bool
  | .app (.var (.named "cons")) [x, more] => isConst x && (match more with | .lit .nil => true | _ => isConstList more)
  | _ => false

/-- lib/peval.cora:22-24 `const-list-length` -/
def constListLength : Core → Nat
  | .app (.var (.named "cons")) [_, more] => (match more with | .lit .nil => 1 | _ => 1 + constListLength more)
  | _ => 0

abbrev Sub := List (Sym × Core)

/-- `assq` -/
def lookup (x : Sym) : Sub → Option Core
  | [] => none
  | (y, s) :: r => if y = x then some s else lookup x r

/-- lib/peval.cora:26-29 `shrink-env` -/
def shrink (ps : List Sym) (σ : Sub) : Sub := σ.filter fun kv => decide (kv.1 ∉ ps)

mutual
/-- lib/peval.cora:51-65 `ref-count` -/
def refCount (x : Sym) : Core → Nat
  | .lit _ => 0
  | .quote _ => 0
  | .var y => if x = y then 1 else 0
  | .ite a b c => refCount x a + (refCount x b + refCount x c)
  | .seq a b => refCount x a + refCount x b
  | .bind y e b => refCount x e + (if y = x then 0 else refCount x b)
  | .lam ps b => if x ∈ ps then 0 else refCount x b
  | .app f args => if isConstList (.app f args) then 0 else refCount x f + refCounts x args
def refCounts (x : Sym) : List Core → Nat
  | [] => 0
  | e :: r => refCount x e + refCounts x r
end

def isLambda : Core → Bool
  | .lam _ _ => true
  | _ => false

def isSymbol : Core → Bool
  | .var _ => true
  | _ => false

/-- lib/peval.cora:67-70 `side-effect-free?` -/
def sideEffectFree (e : Core) : Bool := isLambda e || isConst e || isConstList e

/-- what `peval-let` does, lib/peval.cora:72-85 -/
inductive LetPlan where
  | subst
  | drop
  | seq
  | keep
  deriving DecidableEq

/-- lib/peval.cora:72-85: the decision of `peval-let` -/
def letPlan (var : Sym) (val body : Core) : LetPlan :=
  if isConst val || isSymbol val || (isConstList val && decide (constListLength val < 3)) then .subst
  else if refCount var body = 0 then (if sideEffectFree val then .drop else .seq)
  else if refCount var body = 1 ∧ sideEffectFree val = true then .subst
  else .keep

/-- lib/peval.cora:87-96 `extend-env`, with the accumulators as results: the parameters and arguments that are left, and the new
environment -/
def extendEnv : List Sym → List Core → Sub → List Sym × List Core × Sub
  | p :: ps, a :: as, σ =>
    if isConst a || isConstList a then extendEnv ps as ((p, a) :: σ)
    else
      let r := extendEnv ps as σ
      (p :: r.1, a :: r.2.1, r.2.2)
  | [], args, σ => ([], args, σ)
  | ps, [], σ => (ps, [], σ)

/-- lib/peval.cora:98-101 `peval-apply-lambda` -/
def applyLambda : List Sym → List Core → Core → Core
  | [], [], b => b
  | ps, [], b => .lam ps b
  | ps, args, b => .app (.lam ps b) args

/-- lib/peval.cora:104-113: the clauses of `peval-app` for builtin functions -/
def foldCall : String → List Core → Option Core
  | "cons?", [.app (.var (.named "cons")) [_, _]] => some (.lit (.bool true))
  | "car", [.app (.var (.named "cons")) [x, _]] => some x
  | "cdr", [.app (.var (.named "cons")) [_, x]] => some x
  | "and", [.lit (.bool true), .lit (.bool true)] => some (.lit (.bool true))
  | "null?", [.lit .nil] => some (.lit (.bool true))
  | "null?", [.app (.var (.named "cons")) [_, _]] => some (.lit (.bool false))
  | "not", [.lit (.bool true)] => some (.lit (.bool false))
  | "not", [.lit (.bool false)] => some (.lit (.bool true))
  | "+", [.lit (.int x), .lit (.int y)] => some (.lit (.int (x + y)))
  | "-", [.lit (.int x), .lit (.int y)] => some (.lit (.int (x - y)))
  | _, _ => none

/-- the function of a call -/
inductive Head where
  | builtin (r : Core)
  | lambda (ps : List Sym) (b : Core)
  | other

/-- which clause of `peval-app` is taken, lib/peval.cora:103-118 -/
def headOf : Core → List Core → Head
  | .var (.named p), args => match foldCall p args with | some r => .builtin r | none => .other
  | .lam ps b, _ => .lambda ps b
  | _, _ => .other

/-- a test that is known -/
inductive Test where
  | yes
  | no
  | open

/-- lib/peval.cora:37-41 -/
def testOf : Core → Test
  | .lit (.bool true) => .yes
  | .lit (.bool false) => .no
  | _ => .open

/-- lib/peval.cora:31-49, 72-85, 103-118 `peval`, with `peval-let` and `peval-app`. The first argument bounds the depth of the
recursion. -/
def peval : Nat → Sub → Core → Option Core
  | 0, _, _ => none
  | _ + 1, σ, .var x => some ((lookup x σ).getD (.var x))
  | _ + 1, _, .quote d => some (.quote d)
  | _ + 1, _, .lit c => some (.lit c)
  | n + 1, σ, .ite a b c => do
    let v ← peval n σ a
    match testOf v with
    | .yes => peval n σ b
    | .no => peval n σ c
    | .open => do
      let b ← peval n σ b
      let c ← peval n σ c
      some (.ite v b c)
  | n + 1, σ, .seq a b => do
    let a ← peval n σ a
    let b ← peval n σ b
    some (if isLambda a then b else .seq a b)
  | n + 1, σ, .lam ps b => do
    let b ← peval n (shrink ps σ) b
    some (.lam ps b)
  | n + 1, σ, .bind x e b => do
    let val ← peval n σ e
    match letPlan x val b with
    | .subst => peval n ((x, val) :: σ) b
    | .drop => peval n σ b
    | .seq => do
      let b ← peval n σ b
      some (.seq val b)
    | .keep => do
      let b ← peval n (shrink [x] σ) b
      some (.bind x val b)
  | n + 1, σ, .app f args => do
    let f ← peval n σ f
    let args ← args.mapM (peval n σ)
    match headOf f args with
    | .builtin r => some r
    | .lambda ps b => do
      let r := extendEnv ps args σ
      let b ← peval n (shrink r.1 r.2.2) b
      some (applyLambda r.1 r.2.1 b)
    | .other => some (.app f args)

end Cora.Peval
