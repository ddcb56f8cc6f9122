import Verif.Spec.Lang
/-
The part of the core language that the interpreter handles: every function is called with as many arguments as it has
parameters, functions of the program have at most three parameters, primitives are called through their global
variables, certain global variables are not set. Otherwise it is the language of `Spec.Lang`.
-/
namespace Spec.Lang

mutual
/-- no keyword stands where a function is called -/
def Core.noKeyword : Core → Prop
  | .lit _ | .quote _ | .var _ => True
  | .lam _ b => b.noKeyword
  | .ite a b c => a.noKeyword ∧ b.noKeyword ∧ c.noKeyword
  | .seq a b => a.noKeyword ∧ b.noKeyword
  | .bind _ e b => e.noKeyword ∧ b.noKeyword
  | .app f args => (∀ k ∈ ["quote", "if", "do", "def", "let", "lambda"], f ≠ .var (.named k)) ∧ f.noKeyword ∧
      Core.noKeywords args
def Core.noKeywords : List Core → Prop
  | [] => True
  | c :: r => c.noKeyword ∧ Core.noKeywords r
end

namespace Plain
variable {W : Type}

mutual
/-- `Spec.Lang.Eval` without the excluded calls -/
inductive Eval (E : Ext W) (fixed : Sym → Bool) : Env → World W → Core → Val → World W → Prop where
  | lit (env w c) : Eval E fixed env w (.lit c) c.datum.val w
  | quote (env w d) : Eval E fixed env w (.quote d) d.val w
  | local (env w x v) : find x env = some v → Eval E fixed env w (.var x) v w
  | global (env w x v) : find x env = none → w.globals x = some v → Eval E fixed env w (.var x) v w
  | lam (env w ps b) : Eval E fixed env w (.lam ps b) (.clo ps b (capture (Core.lam ps b).fv env)) w
  | then (env w a b c v w1 w2) : Eval E fixed env w a (.bool true) w1 → Eval E fixed env w1 b v w2 →
      Eval E fixed env w (.ite a b c) v w2
  | else (env w a b c u v w1 w2) : Eval E fixed env w a u w1 → u ≠ .bool true → Eval E fixed env w1 c v w2 →
      Eval E fixed env w (.ite a b c) v w2
  | seq (env w a b u v w1 w2) : Eval E fixed env w a u w1 → Eval E fixed env w1 b v w2 →
      Eval E fixed env w (.seq a b) v w2
  | bind (env w x e b u v w1 w2) : Eval E fixed env w e u w1 → Eval E fixed ((x, u) :: env) w1 b v w2 →
      Eval E fixed env w (.bind x e b) v w2
  | prim (env w f args p vs v w1 w2) : f.primOf env = some p → w.globals (.named p) = some (.prim p) →
      EvalArgs E fixed env w args vs w1 →
      Apply E fixed w1 (.prim p) vs v w2 → Eval E fixed env w (.app f args) v w2
  | app (env w f args g vs v w1 w2 w3) : f.primOf env = none → Eval E fixed env w f g w1 →
      EvalArgs E fixed env w1 args vs w2 → Apply E fixed w2 g vs v w3 → Eval E fixed env w (.app f args) v w3
/-- operands, left to right -/
inductive EvalArgs (E : Ext W) (fixed : Sym → Bool) : Env → World W → List Core → List Val → World W → Prop where
  | nil (env w) : EvalArgs E fixed env w [] [] w
  | cons (env w e es v vs w1 w2) : Eval E fixed env w e v w1 → EvalArgs E fixed env w1 es vs w2 →
      EvalArgs E fixed env w (e :: es) (v :: vs) w2
/-- application to exactly the arguments the function takes -/
inductive Apply (E : Ext W) (fixed : Sym → Bool) : World W → Val → List Val → Val → World W → Prop where
  | clo (w ps b env args v w1) : args.length = ps.length → ps.length ≤ 3 →
      Eval E fixed ((ps.zip args).reverse ++ env) w b v w1 → Apply E fixed w (.clo ps b env) args v w1
  | prim (w p args v w1) : primArity p = some args.length → (∀ x u, p = "set" → args = [.sym x, u] → fixed x = false) →
      primApply E p args w = some (v, w1) → Apply E fixed w (.prim p) args v w1
  | native (w id n args v w1) : args.length = n → E.native id args w = some (v, w1) →
      Apply E fixed w (.native id n) args v w1
  | pap (w f got args v w1) : args ≠ [] → Apply E fixed w f (got ++ args) v w1 → Apply E fixed w (.pap f got) args v w1
end

end Plain
end Spec.Lang
