import Verif.Spec.Repl
import Verif.Spec.CompileRun
/-
What it means that the interpreter and a compiled program are in the same state, as far as it is seen. Only values of the
interpreter and of the machine are taken from the model.
-/
open Spec.Lang Cora.Compile
namespace Spec.Compiled
variable {A W : Type}

/-- functions of the interpreter -/
def isFunctionValue : Cora.Interp.Val → Bool
  | .clo _ _ _ | .prim _ | .pap _ _ | .native _ _ => true
  | _ => false

/-- a value of the interpreter and one of the machine look the same: the same data, with functions at the same places -/
inductive Alike : Cora.Interp.Val → CVal A → Prop where
  | int (n) : Alike (.int n) (.int n)
  | bool (b) : Alike (.bool b) (.bool b)
  | nil : Alike .nil .nil
  | str (s) : Alike (.str s) (.str s)
  | sym (x) : Alike (.sym x) (.sym x)
  | cons {a d a' d'} : Alike a a' → Alike d d' → Alike (.cons a d) (.cons a' d')
  | fn {u v} : isFunctionValue u = true → isFunctionObject v = true → Alike u v

/-- the outside is in the same state, the same global variables are set, and their values look the same -/
structure AlikeWorlds (u : Cora.Interp.World W) (c : CWorld A W) : Prop where
  rest : u.rest = c.rest
  globals : ∀ x, (u.globals x = none ∧ c.globals x = none) ∨ ∃ a b, u.globals x = some a ∧ c.globals x = some b ∧ Alike a b

/-- nothing is exported by the packages imported -/
def Bare (w : World W) : Prop := ∀ p ∈ w.imported, w.exported p = []

/-- programs one after the other, as one program -/
def inOrder : Core → List Core → Core
  | e, [] => e
  | e, e' :: es => .seq e (inOrder e' es)

end Spec.Compiled
