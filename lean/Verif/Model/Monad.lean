import Verif.Spec.Lang
/-
lib/monad.cora: the functions of the library as the core forms their definitions are (`defun name ps b` sets `name` to
`(lambda ps b)`), and the closures these evaluate to. They have no free variables but each other's names, which are
resolved by the namespace (`run-cc`, `id` in `reset` are written as the functions they name).
-/
open Spec.Lang
namespace Cora.Monad

abbrev v (s : String) : Core := .var (.named s)
abbrev n (s : String) : Sym := .named s

/-- lib/monad.cora:8-10 `state-return` -/
def stateReturn : Val := .clo [n "x"] (.lam [n "s", n "k"] (.app (v "k") [v "s", v "x"])) []

/-- lib/monad.cora:12-16 `state-bind` -/
def stateBind : Val := .clo [n "m", n "f"]
  (.lam [n "s"] (.app (.app (v "m") [v "s"]) [.lam [n "s1", n "v"] (.app (v "f") [v "v", v "s1"])])) []

/-- lib/monad.cora:20 `cont-return` -/
def contReturn : Val := .clo [n "x"] (.lam [n "k"] (.app (v "k") [v "x"])) []

/-- lib/monad.cora:22-25 `cont-bind` -/
def contBind : Val := .clo [n "m", n "f"]
  (.lam [n "k"] (.app (v "m") [.lam [n "res"] (.app (v "f") [v "res", v "k"])])) []

/-- lib/monad.cora:50 `id` -/
def id : Val := .clo [n "x"] (v "x") []

/-- lib/monad.cora:52-53 `run-cc` -/
def runCC : Val := .clo [n "c", n "k"] (.app (v "c") [v "k"]) []

/-- lib/monad.cora:60-61 `reset`: `run-cc` and `id` are its global variables -/
def reset : Val := .clo [n "cc"] (.app (v "cora/lib/monad#run-cc") [v "cc", v "cora/lib/monad#id"]) []

end Cora.Monad
