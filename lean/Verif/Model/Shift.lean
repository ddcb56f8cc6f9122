import Verif.Model.Macro
import Verif.Model.Monad
/-
Model of `shift` in /repo/lib/monad.cora. (`reset` and the continuation monad are in Model/Monad.)
-/
open Spec.Lang
namespace Cora.Macro

/-- lib/monad.cora:64-67 `shift`: `['lambda [k] . body]` -/
def shiftMacro (exp : Datum) : Option Datum := do
  let k ← cadr exp
  let body ← cddr exp
  return .cons (kw "lambda") (.cons (.list [k]) body)

end Cora.Macro
