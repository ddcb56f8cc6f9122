import Verif.Model.Infer
import Verif.Spec.TypesData
/-
Model of the rules of the type checker, /repo/lib/infer.cora:150-188. `none` is also a trap: no clause of a `func` fits.
-/
open Spec.Types
namespace Cora.Infer

/-- what a rule is called with: the expression, the environment, the substitution and the state (`typ` is fixed) -/
abbrev Rule := Exp → List (String × Ty) → Subst → St → Option (URes × St)

/-- is the expression a non-empty list (as a form)? -/
def Exp.isPair : Exp → Bool
  | .nil | .num _ | .bool _ | .str _ | .var _ => false
  | _ => true

/-- the types that Model/Infer has: no rules inside -/
def plainTy : RTy → Option Ty
  | .base t => some t
  | .list a => (plainTy a).map .list
  | _ => none

/-- lib/infer.cora:154-188 `check-type` with the rules for `list` (162-169), `tuple` (171-175), `maybe` (177-180) and `monad` (182-187).
`user` are the rules that were added with `deftype` (150-152), the last one first; none of them is for one of these four. The pattern
`[retrn . x]` of the rule for `monad` has two variables, so it fits every non-empty list. Left out (`none`): expressions other than `()`
and `(cons x y)` as a list of tuples and so on. -/
def checkR (user : List (String × Rule)) : Nat → Exp → RTy → List (String × Ty) → Subst → St → Option (URes × St)
  | 0, _, _, _, _, _ => none
  | n + 1, e, t, env, s, σ =>
    match t with
    | .base t => check n e t env s σ
    | .list a =>
      match e with
      | .nil => some (.succ s, σ)
      | .consE x y =>
        bindS (checkR user n x a env s σ) fun s1 σ =>
        checkR user n y (.list a) env s1 σ
      | e =>
        match plainTy a with
        | some a => checkH n e (.list a) env s σ
        | none => none
    | .tuple a b =>
      match e with
      | .consE x y =>
        bindS (checkR user n x a env s σ) fun s1 σ =>
        checkR user n y b env s1 σ
      | _ => none
    | .maybe a =>
      match e with
      | .nil => some (.succ s, σ)
      | e => checkR user n e a env s σ
    | .monad _ => if Exp.isPair e then some (.succ s, σ) else none
    | .user c =>
      match look c user with
      | some f => f e env s σ
      | none => checkH n e (.con c) env s σ

/-- lib/infer.cora:150-152 `deftype` -/
def deftype (c : String) (f : Rule) (user : List (String × Rule)) : List (String × Rule) := (c, f) :: user

end Cora.Infer
