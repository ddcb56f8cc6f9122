import Verif.Model.Macro
/-
Model of `forall` and `tvar` in /repo/lib/infer.cora: a type scheme is written, a type with new variables is made.
-/
open Spec.Lang
namespace Cora.Macro

/-- lib/infer.cora:7-10 `append-tvar`; `car` and `cdr` of anything but a pair trap -/
def appendTvar : Datum → Datum → Option Datum
  | .nil, ret => some (reverse ret)
  | .cons a d, ret => appendTvar d (.cons (.cons (kw "tvar") .nil) (.cons a ret))
  | _, _ => none

/-- init.cora:109-114 `elem?`, on data -/
def elemD (x : Datum) : Datum → Bool
  | .cons a d => decide (x = a) || elemD x d
  | _ => false

/-- lib/infer.cora:12-15 `replace-tvlist`; `none`: no rule matches -/
def replaceTvlist (tvlist : Datum) : Datum → Option Datum
  | .sym x => some (if elemD (.sym x) tvlist then .list [kw "unquote", .sym x] else .sym x)
  | .nil => some .nil
  | .cons x y => do return .cons (← replaceTvlist tvlist x) (← replaceTvlist tvlist y)
  | _ => none

/-- lib/infer.cora:17-20 `forall` -/
def forallMacro (exp : Datum) : Option Datum := do
  let tvlist ← cadr exp
  let body ← caddr exp
  let bs ← appendTvar tvlist .nil
  let body ← replaceTvlist tvlist body
  return .cons (kw "let") (← append bs (.list [.list [kw "backquote", body]]))

/-- lib/infer.cora:22 `*tvar*`, with the name it has in the package -/
def tvarVar : Sym := .named "cora/lib/infer#*tvar*"

/-- lib/infer.cora:23-26 the function `tvar`: `def` sets the global variable -/
def tvarFn : Val :=
  .clo [] (.bind (.named "ret") (.var tvarVar)
    (.seq (.app (.var (.named "set")) [.quote (.sym tvarVar), .app (.var (.named "+")) [.var (.named "ret"), .lit (.int 1)]])
      (.var (.named "ret")))) []

end Cora.Macro
