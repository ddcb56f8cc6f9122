import Verif.Model.Macro
/-
The macros `let-loop` (lib/let-loop.cora) and `values`, `let-values` (lib/sys.cora).
-/
open Spec.Lang
namespace Cora.Macro

/-- lib/let-loop.cora:18-20 `extract-params-h` -/
def extractParamsH : Datum → Datum → Option Datum
  | res, .nil => some (reverse res)
  | res, .cons x (.cons _ l) => extractParamsH (.cons x res) l
  | _, _ => none

/-- lib/let-loop.cora:22-24 `extract-init-h` -/
def extractInitH : Datum → Datum → Option Datum
  | res, .nil => some (reverse res)
  | res, .cons _ (.cons y l) => extractInitH (.cons y res) l
  | _, _ => none

/-- lib/let-loop.cora:26-34 `rewrite-let-loop-macro` -/
def rewriteLetLoop : Datum → M Datum
  | .cons recur (.cons paramInit (.cons body .nil)) => do
    let params ← extractParamsH .nil paramInit
    let inits ← extractInitH .nil paramInit
    let mta ← gensym
    let f ← gensym
    return .cons (.list [kw "let", f,
        .list [kw "lambda", .cons mta params, .list [kw "let", recur, .list [mta, mta], body]],
        .list [f, f]]) inits
  | _ => fun _ => none

/-- lib/let-loop.cora:36-37 `let-loop` -/
def letLoopMacro (exp : Datum) : M Datum := do rewriteLetLoop (← cdr exp)

/-- lib/sys.cora:38-42 `values` -/
def valuesMacro (exp : Datum) : M Datum := do
  let vals ← cdr exp
  let k ← gensym
  return .list [kw "lambda", .list [k], .cons k vals]

/-- lib/sys.cora:45-50 `let-values` -/
def letValuesMacro (exp : Datum) : Option Datum := do
  some (.list [kw "call-with-values", ← caddr exp, .cons (kw "lambda") (.cons (← cadr exp) (← cdddr exp))])

/-- lib/sys.cora:53-54 `call-with-values`: the function -/
def callWithValues : Val :=
  .clo [.named "m", .named "k"] (.app (.var (.named "m")) [.var (.named "k")]) []

end Cora.Macro
