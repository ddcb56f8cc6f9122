import Verif.Spec.Types
/-
Model of the type checker, /repo/lib/infer.cora. Type variables are numbers; `['-> t]` is `thunk`, `[a '-> b]` is
`arrow`, `['list a]` is `list`, everything else (`int`, `bool`, `string`, `symbol`, and types of other rules, which are
not taken apart) is `con`. The rules for `tuple`, `maybe` and `monad` (lines 172-188) are left out. The recursion need
not end, so functions take a fuel: `none` means it did not suffice. Messages are left out.
-/
open Spec.Types
namespace Cora.Infer

/-- substitutions -/
abbrev Subst := List (Nat × Ty)

/-- lib/sys.cora:17-20 `assq` -/
def assq (v : Nat) : Subst → Option Ty
  | [] => none
  | (x, t) :: r => if v = x then some t else assq v r

/-- lib/infer.cora:63-74 `apply-subst` -/
def applySubst : Nat → Ty → Subst → Option Ty
  | 0, _, _ => none
  | _ + 1, .con c, _ => some (.con c)
  | n + 1, .thunk t, s => (applySubst n t s).map .thunk
  | n + 1, .arrow a b, s =>
    match applySubst n a s, applySubst n b s with
    | some a, some b => some (.arrow a b)
    | _, _ => none
  | n + 1, .list a, s => (applySubst n a s).map .list
  | n + 1, .var v, s =>
    match assq v s with
    | none => some (.var v)
    | some t => applySubst n t s

/-- lib/infer.cora:53-61 `occur?` for a type variable as first argument (lines 45-46 call it with no other): only function
types are searched -/
def occur (x : Nat) : Ty → Bool
  | .arrow a b => occur x a || occur x b
  | t => decide (.var x = t)

/-- lib/infer.cora:39-41 what `unify` returns -/
inductive URes where
  | succ (s : Subst)
  | fail
  deriving DecidableEq

/-- lib/infer.cora:43-51 `unify1`; `rec` is `unify`. (If the first type is a variable that occurs in the second one, the
second is a function type and no later clause fits.) -/
def unify1 (rec : Ty → Ty → Subst → Option URes) (x y : Ty) (s : Subst) : Option URes :=
  if x = y then some (.succ s)
  else
    match x, y with
    | .var a, y => if occur a y then some .fail else some (.succ ((a, y) :: s))
    | x, .var b => if occur b x then some .fail else some (.succ ((b, x) :: s))
    | .thunk a, .thunk b => rec a b s
    | .arrow a b, .arrow c d =>
      match rec a c s with
      | none => none
      | some .fail => some .fail
      | some (.succ s1) => rec b d s1
    | .list a, .list b => rec a b s
    | _, _ => some .fail

/-- lib/infer.cora:36-37 `unify` -/
def unify : Nat → Ty → Ty → Subst → Option URes
  | 0, _, _, _ => none
  | n + 1, x, y, s =>
    match applySubst n x s, applySubst n y s with
    | some x, some y => unify1 (unify n) x y s
    | _, _ => none

/-- `*tvar*` (lib/infer.cora:22-26) and `*type-env*` (28-31) -/
structure St where
  next : Nat
  tenv : List (String × Ty)

/-- lib/infer.cora:39-41 `bind-s` -/
def bindS : Option (URes × St) → (Subst → St → Option (URes × St)) → Option (URes × St)
  | none, _ => none
  | some (.fail, σ), _ => some (.fail, σ)
  | some (.succ s, σ), f => f s σ

/-- a call of `unify` -/
def unifyS (n : Nat) (x y : Ty) (s : Subst) (σ : St) : Option (URes × St) := (unify n x y s).map (·, σ)

/-- lib/infer.cora:22-26 `tvar`, `k` times -/
def St.tvars (σ : St) (k : Nat) : St := { σ with next := σ.next + k }

/-- lib/infer.cora:142-146: the bindings of `a` and `b` are removed -/
def forget (a b : Nat) (s : Subst) : Subst := s.filter fun x => !(decide (x.1 = a) || decide (x.1 = b))

mutual
/-- lib/infer.cora:95-148 `check-type-h` and 79-93 `check-type-for-set` -/
def checkH : Nat → Exp → Ty → List (String × Ty) → Subst → St → Option (URes × St)
  | 0, _, _, _, _, _ => none
  | n + 1, e, t, env, s, σ =>
    match e with
    | .nil =>
      match t with
      | .var _ => some (.succ s, σ)
      | _ => some (.fail, σ)
    | .num _ => unifyS n (.con "int") t s σ
    | .bool _ => unifyS n (.con "bool") t s σ
    | .str _ => unifyS n (.con "string") t s σ
    | .quote _ => unifyS n (.con "symbol") t s σ
    | .var x =>
      match look x env with
      | some T => unifyS n T t s σ
      | none =>
        match look x σ.tenv with
        | some T => unifyS n T t s σ
        | none => some (.succ s, σ)
    | .ite e1 e2 e3 =>
      bindS (checkH n e1 (.con "bool") env s σ) fun s1 σ =>
      bindS (check n e2 t env s1 σ) fun s2 σ =>
      check n e3 t env s2 σ
    | .seq e1 e2 =>
      bindS (checkH n e1 (.var σ.next) env s (σ.tvars 1)) fun _ σ =>
      checkH n e2 t env s σ
    | .lam0 e =>
      bindS (check n e (.var σ.next) env s (σ.tvars 1)) fun s1 σ' =>
      unifyS n t (.thunk (.var σ.next)) s1 σ'
    | .lam x e =>
      bindS (check n e (.var (σ.next + 1)) ((x, .var σ.next) :: env) s (σ.tvars 2)) fun s1 σ' =>
      unifyS n t (.arrow (.var σ.next) (.var (σ.next + 1))) s1 σ'
    | .letE x b c =>
      bindS (check n b (.var σ.next) env s (σ.tvars 1)) fun s1 σ' =>
      check n c t ((x, .var σ.next) :: env) s1 σ'
    | .set x v =>
      match look x σ.tenv with
      | none =>
        bindS (check n v (.var σ.next) σ.tenv [] (σ.tvars 1)) fun s1 σ' =>
        match applySubst n (.var σ.next) s1 with
        | none => none
        | some T => some (.succ s1, { σ' with tenv := (x, T) :: σ'.tenv })
      | some T => check n v T env s σ
    | .app0 f => checkH n f (.thunk t) env s σ
    | .app f x =>
      let a := σ.next
      let b := σ.next + 1
      bindS (checkH n f (.arrow (.var a) (.var b)) env s (σ.tvars 2)) fun s1 σ =>
      match applySubst n (.var a) s1 with
      | none => none
      | some A =>
        bindS (check n x A env s1 σ) fun s2 σ =>
        bindS (unifyS n t (.var b) s2 σ) fun s3 σ =>
        some (.succ (forget a b s3), σ)
    | .consE x y => check n (.app (.app (.var "cons") x) y) t env s σ
/-- lib/infer.cora:154-160 `check-type` with 162-167 `type-check-for-list` -/
def check : Nat → Exp → Ty → List (String × Ty) → Subst → St → Option (URes × St)
  | 0, _, _, _, _, _ => none
  | n + 1, e, t, env, s, σ =>
    match t with
    | .list a =>
      match e with
      | .nil => some (.succ s, σ)
      | .consE x y =>
        bindS (check n x a env s σ) fun s1 σ =>
        check n y (.list a) env s1 σ
      | e => checkH n e (.list a) env s σ
    | t => checkH n e t env s σ
end

end Cora.Infer
