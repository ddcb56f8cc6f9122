import Verif.Spec.Unify
/-
Model of unification in /repo/lib/ukanren.cora:17-56, 159-165. Logic variables are vectors of length 1 holding a
number; other values are atoms (compared with `=`, see C04) and pairs; the empty list is an atom. A substitution
is a list of pairs (variable . term). The recursion of `walk` and `unify` need not end, so the functions take a
fuel: `none` means it did not suffice.
-/
open Spec
namespace Cora.Unify

variable {A : Type} [DecidableEq A]

/-- a substitution -/
abbrev Subst (A : Type) := List (Nat × LTerm A)

/-- lib/ukanren.cora:22-26, 30 `assp` with the predicate used by `walk` -/
def assp (u : Nat) : Subst A → Option (Nat × LTerm A)
  | [] => none
  | x :: y => if u = x.1 then some x else assp u y

/-- lib/ukanren.cora:28-34 `walk` -/
def walk : Nat → LTerm A → Subst A → Option (LTerm A)
  | 0, _, _ => none
  | n + 1, .var u, s =>
    match assp u s with
    | none => some (.var u)
    | some pr => walk n pr.2 s
  | _ + 1, t, _ => some t

/-- lib/ukanren.cora:44-56 `unify` and `unify1`. The empty list is both the empty substitution and the sign of
failure. -/
def unify : Nat → LTerm A → LTerm A → Subst A → Option (Subst A)
  | 0, _, _, _ => none
  | n + 1, u, v, s =>
    match walk n u s, walk n v s with
    | some (.var x), some (.var y) => if x = y then some s else some ((x, .var y) :: s)
    | some (.var x), some v => some ((x, v) :: s)
    | some u, some (.var y) => some ((y, u) :: s)
    | some (.cons u1 u2), some (.cons v1 v2) =>
      match unify n u1 v1 s with
      | none => none
      | some s1 => if s1 = [] then some [] else unify n u2 v2 s1
    | some u, some v => if u = v then some s else some []
    | _, _ => none

/-- lib/ukanren.cora:159-165 `walk*` -/
def walkStar : Nat → LTerm A → Subst A → Option (LTerm A)
  | 0, _, _ => none
  | n + 1, v, s =>
    match walk n v s with
    | none => none
    | some (.cons h t) =>
      match walkStar n h s, walkStar n t s with
      | some h, some t => some (.cons h t)
      | _, _ => none
    | some v => some v

end Cora.Unify
