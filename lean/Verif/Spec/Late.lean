import Verif.Spec.Lang
/-
A variant of the meaning of programs, which differs from `Eval` only in this: if the result of an operand (or of the form
in function position) is a global variable, the variable must still have the same value when the call is made.
So the result of a form is recorded twice: as a value, and as where it comes from.
-/
namespace Spec.Lang
variable {W : Type}

/-- where the result of a form comes from: a value, or a global variable -/
inductive Operand where
  | now (v : Val)
  | later (x : Sym)

/-- its value, with global variables read in the world `w` -/
def Operand.get (w : World W) : Operand → Option Val
  | .now v => some v
  | .later x => w.globals x

/-- the values of several -/
def settle (w : World W) : List Operand → Option (List Val)
  | [] => some []
  | o :: r =>
    match o.get w, settle w r with
    | some v, some vs => some (v :: vs)
    | _, _ => none

mutual
/-- evaluation where global variables do not change between being evaluated as operands and the call. `XEval over E env w e v o w'`:
the form has the value `v`, which comes from `o`. If `over` is false, no function is called with more arguments than it takes. -/
inductive XEval (over : Bool) (E : Ext W) : Env → World W → Core → Val → Operand → World W → Prop where
  | lit (env w c) : XEval over E env w (.lit c) c.datum.val (.now c.datum.val) w
  | quote (env w d) : XEval over E env w (.quote d) d.val (.now d.val) w
  | local (env w x v) : find x env = some v → XEval over E env w (.var x) v (.now v) w
  | global (env w x v) : find x env = none → w.globals x = some v → XEval over E env w (.var x) v (.later x) w
  | lam (env w ps b) : XEval over E env w (.lam ps b) (.clo ps b (capture (Core.lam ps b).fv env))
      (.now (.clo ps b (capture (Core.lam ps b).fv env))) w
  | then (env w a b c v o r w1 w2) : XEval over E env w a (.bool true) o w1 → XEval over E env w1 b v r w2 →
      XEval over E env w (.ite a b c) v r w2
  | else (env w a b c u v o r w1 w2) : XEval over E env w a u o w1 → u ≠ .bool true → XEval over E env w1 c v r w2 →
      XEval over E env w (.ite a b c) v r w2
  | seq (env w a b u v o r w1 w2) : XEval over E env w a u o w1 → XEval over E env w1 b v r w2 → XEval over E env w (.seq a b) v r w2
  | bind (env w x e b u v o r w1 w2) : XEval over E env w e u o w1 → XEval over E ((x, u) :: env) w1 b v r w2 →
      XEval over E env w (.bind x e b) v r w2
  | prim (env w f args p vs os v w1 w2) : f.primOf env = some p → XArgs over E env w args vs os w1 →
      settle w1 os = some vs → XApply over E w1 (.prim p) vs v w2 → XEval over E env w (.app f args) v (.now v) w2
  | app (env w f args g o vs os v w1 w2 w3) : f.primOf env = none → XEval over E env w f g o w1 →
      XArgs over E env w1 args vs os w2 → settle w2 (o :: os) = some (g :: vs) →
      XApply over E w2 g vs v w3 → XEval over E env w (.app f args) v (.now v) w3
/-- operands, left to right -/
inductive XArgs (over : Bool) (E : Ext W) : Env → World W → List Core → List Val → List Operand → World W → Prop where
  | nil (env w) : XArgs over E env w [] [] [] w
  | cons (env w e es v vs o os w1 w2) : XEval over E env w e v o w1 → XArgs over E env w1 es vs os w2 →
      XArgs over E env w (e :: es) (v :: vs) (o :: os) w2
/-- application of a function to any number of arguments -/
inductive XApply (over : Bool) (E : Ext W) : World W → Val → List Val → Val → World W → Prop where
  | clo (w ps b env args v o w1) : args.length = ps.length →
      XEval over E ((ps.zip args).reverse ++ env) w b v o w1 → XApply over E w (.clo ps b env) args v w1
  | prim (w p args v w1) : primArity p = some args.length → primApply E p args w = some (v, w1) →
      XApply over E w (.prim p) args v w1
  | native (w id n args v w1) : args.length = n → E.native id args w = some (v, w1) →
      XApply over E w (.native id n) args v w1
  | none (w f n) : f.arity = some n → 0 < n → XApply over E w f [] f w
  | less (w f n args) : f.arity = some n → 0 < args.length → args.length < n → XApply over E w f args (.pap f args) w
  | more (w f n args g v w1 w2) : over = true → f.arity = some n → n < args.length → XApply over E w f (args.take n) g w1 →
      XApply over E w1 g (args.drop n) v w2 → XApply over E w f args v w2
  | pap (w f got args v w1) : args ≠ [] → XApply over E w f (got ++ args) v w1 → XApply over E w (.pap f got) args v w1
  | papNone (w f got) : XApply over E w (.pap f got) [] (.pap f got) w
end

/-- evaluation where global variables do not change between being evaluated as operands and the call -/
abbrev SEval (E : Ext W) := XEval true E

end Spec.Lang
