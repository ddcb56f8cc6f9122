import Verif.Model.Unify
import Verif.Spec.Reify
/-
Model of how answers are shown, /repo/lib/ukanren.cora:159-184. As in Model/Unify functions take a fuel; `none` is also a trap.
-/
open Spec
namespace Cora.Unify

variable {A : Type} [DecidableEq A]

/-- lib/ukanren.cora:174-180 `reify-s` and `reify-s-h`; `name` is `reify-name` -/
def reifyS (name : Nat → Option A) : Nat → LTerm A → Subst A → Option (Subst A)
  | 0, _, _ => none
  | n + 1, v, s =>
    match walk n v s with
    | none => none
    | some (.var x) => (name s.length).map fun a => (x, .atom a) :: s
    | some (.cons h t) =>
      match reifyS name n h s with
      | none => none
      | some s1 => reifyS name n t s1
    | some _ => some s

/-- lib/ukanren.cora:170-172 `reify-state`; the state's substitution is `s` -/
def reifyState (name : Nat → Option A) (n : Nat) (s : Subst A) : Option (LTerm A) :=
  match walkStar n (.var 0) s with
  | none => none
  | some v =>
    match reifyS name n v [] with
    | none => none
    | some r => walkStar n v r

/-- lib/ukanren.cora:167-168 `reify` with `map` (C54) -/
def reify (name : Nat → Option A) (n : Nat) (l : List (Subst A)) : Option (List (LTerm A)) := l.mapM (reifyState name n)

/-- lib/ukanren.cora:182-184 `reify-name`: it calls `string.append`, which is a variable of the package that nothing sets (the function
is called `string-append`, src/runtime.c:1077); calling an unset variable traps (src/runtime.h `coraCall`). -/
def reifyName : Nat → Option A := fun _ => none

/-- what a caller expects of it; `sym` makes the symbol of a string -/
def intendedName (sym : String → A) : Nat → Option A := fun n => some (sym ("_." ++ toString n))

end Cora.Unify
