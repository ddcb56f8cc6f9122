/-
Types, expressions, what it means for an expression to have a type, and what the expressions do: with type errors.
-/
namespace Spec.Types

/-- types: variables, constants such as `int`, functions without parameter, functions, lists -/
inductive Ty where
  | var (n : Nat)
  | con (c : String)
  | thunk (t : Ty)
  | arrow (a b : Ty)
  | list (a : Ty)
  deriving DecidableEq

/-- put types for the variables -/
def Ty.inst (θ : Nat → Ty) : Ty → Ty
  | .var n => θ n
  | .con c => .con c
  | .thunk t => .thunk (t.inst θ)
  | .arrow a b => .arrow (a.inst θ) (b.inst θ)
  | .list a => .list (a.inst θ)

/-- the variable occurs in the type -/
def Ty.has (x : Nat) : Ty → Prop
  | .var n => n = x
  | .con _ => False
  | .thunk t => t.has x
  | .arrow a b => a.has x ∨ b.has x
  | .list a => a.has x

/-- only constants, variables and functions -/
def Ty.plain : Ty → Prop
  | .var _ => True
  | .con _ => True
  | .thunk _ => False
  | .arrow a b => a.plain ∧ b.plain
  | .list _ => False

/-- without variables -/
def Ty.ground (t : Ty) : Prop := ∀ x, ¬ t.has x

/-- expressions. `(lambda (x y …) e)` stands for nested functions and `(f x y …)` for nested calls; `(cons x y)` is
kept, because the type checker has a rule for it. -/
inductive Exp where
  | nil
  | num (n : Int)
  | bool (b : Bool)
  | str (s : String)
  | quote (x : String)
  | var (x : String)
  | ite (c a b : Exp)
  | seq (a b : Exp)
  | lam0 (e : Exp)
  | lam (x : String) (e : Exp)
  | letE (x : String) (a b : Exp)
  | set (x : String) (e : Exp)
  | app0 (f : Exp)
  | app (f a : Exp)
  | consE (a b : Exp)

/-- the first entry for a name -/
def look {α : Type} (x : String) : List (String × α) → Option α
  | [] => none
  | (y, a) :: r => if x = y then some a else look x r

/-- the names that are used in an expression and not bound in it -/
def Exp.free : Exp → List String
  | .var x => [x]
  | .ite c a b => c.free ++ a.free ++ b.free
  | .seq a b => a.free ++ b.free
  | .lam0 e => e.free
  | .lam x e => e.free.filter (· ≠ x)
  | .letE x a b => a.free ++ b.free.filter (· ≠ x)
  | .set x e => x :: e.free
  | .app0 f => f.free
  | .app f a => f.free ++ a.free
  | .consE a b => a.free ++ b.free
  | _ => []

/-- simple types; `decl` gives the types of global names -/
inductive HasType (decl : String → Option Ty) : List (String × Ty) → Exp → Ty → Prop
  | num {Γ n} : HasType decl Γ (.num n) (.con "int")
  | bool {Γ b} : HasType decl Γ (.bool b) (.con "bool")
  | str {Γ s} : HasType decl Γ (.str s) (.con "string")
  | quote {Γ x} : HasType decl Γ (.quote x) (.con "symbol")
  | loc {Γ x t} : look x Γ = some t → HasType decl Γ (.var x) t
  | glob {Γ x t} : look x Γ = none → decl x = some t → HasType decl Γ (.var x) t
  | ite {Γ c a b t} : HasType decl Γ c (.con "bool") → HasType decl Γ a t → HasType decl Γ b t →
      HasType decl Γ (.ite c a b) t
  | seq {Γ a b t u} : HasType decl Γ a u → HasType decl Γ b t → HasType decl Γ (.seq a b) t
  | lam0 {Γ e t} : HasType decl Γ e t → HasType decl Γ (.lam0 e) (.thunk t)
  | lam {Γ x e a b} : HasType decl ((x, a) :: Γ) e b → HasType decl Γ (.lam x e) (.arrow a b)
  | letE {Γ x e e' a b} : HasType decl Γ e a → HasType decl ((x, a) :: Γ) e' b → HasType decl Γ (.letE x e e') b
  | app0 {Γ f t} : HasType decl Γ f (.thunk t) → HasType decl Γ (.app0 f) t
  | app {Γ f e a b} : HasType decl Γ f (.arrow a b) → HasType decl Γ e a → HasType decl Γ (.app f e) b

/-- the expressions of which a program consists that calls only declared functions: `d` are the global names with a
declared type, `L` the local names. With `op = true`: an expression in operator position. The first part of `(do a b)` does
not use local names. -/
inductive Calls (d : String → Prop) : List String → Bool → Exp → Prop
  | num {L n} : Calls d L false (.num n)
  | bool {L b} : Calls d L false (.bool b)
  | str {L s} : Calls d L false (.str s)
  | quote {L x} : Calls d L false (.quote x)
  | loc {L x} : x ∈ L → Calls d L false (.var x)
  | glob {L x op} : x ∉ L → d x → Calls d L op (.var x)
  | ite {L c a b} : Calls d L false c → Calls d L false a → Calls d L false b → Calls d L false (.ite c a b)
  | seq {L a b} : Calls d L false a → (∀ x ∈ L, x ∉ a.free) → Calls d L false b → Calls d L false (.seq a b)
  | lam {L x e} : Calls d (x :: L) false e → Calls d L false (.lam x e)
  | letE {L x a b} : Calls d L false a → Calls d (x :: L) false b → Calls d L false (.letE x a b)
  | app {L f a op} : Calls d L true f → Calls d L false a → Calls d L op (.app f a)

/-- values; `ext g args` is the declared function `g` with some of its arguments -/
inductive Val where
  | int (n : Int)
  | bool (b : Bool)
  | str (s : String)
  | sym (x : String)
  | nil
  | clo0 (e : Exp) (env : List (String × Val))
  | clo (x : String) (e : Exp) (env : List (String × Val))
  | ext (g : String) (args : List Val)

/-- is a value of the kind a type says? -/
def Val.kind : Val → Ty → Bool
  | .int _, .con c => c = "int"
  | .bool _, .con c => c = "bool"
  | .str _, .con c => c = "string"
  | .sym _, .con c => c = "symbol"
  | .clo0 _ _, .thunk _ => true
  | .clo _ _ _, .arrow _ _ => true
  | .ext _ _, .arrow _ _ => true
  | _, _ => false

/-- what the evaluation of an expression comes to: a value, a type error, or nothing within the fuel -/
inductive Out where
  | val (v : Val)
  | wrong
  | more

/-- the type that is left of a function type after `n` arguments -/
def Ty.drop : Nat → Ty → Ty
  | 0, t => t
  | n + 1, .arrow _ b => b.drop n
  | _ + 1, t => t

/-- call the declared function `g` with one more argument: an argument of another kind than declared is a type error;
with all its arguments the function gives a value, or nothing -/
def callExt (decl : String → Option Ty) (G : String → List Val → Option Val) (g : String) (args : List Val) (v : Val) : Out :=
  match decl g with
  | none => .wrong
  | some T =>
    match T.drop args.length with
    | .arrow a b =>
      if v.kind a then
        match b with
        | .arrow _ _ => .val (.ext g (args ++ [v]))
        | _ =>
          match G g (args ++ [v]) with
          | some r => .val r
          | none => .more
      else .wrong
    | _ => .wrong

/-- evaluation: calling what is no function, a test that is no boolean and a name without value are type errors -/
def eval (decl : String → Option Ty) (G : String → List Val → Option Val) : Nat → List (String × Val) → Exp → Out
  | 0, _, _ => .more
  | k + 1, env, e =>
    match e with
    | .nil => .val .nil
    | .num n => .val (.int n)
    | .bool b => .val (.bool b)
    | .str s => .val (.str s)
    | .quote x => .val (.sym x)
    | .var x =>
      match look x env with
      | some v => .val v
      | none =>
        match decl x with
        | none => .wrong
        | some (.arrow _ _) => .val (.ext x [])
        | some _ =>
          match G x [] with
          | some v => .val v
          | none => .more
    | .ite c a b =>
      match eval decl G k env c with
      | .val (.bool true) => eval decl G k env a
      | .val (.bool false) => eval decl G k env b
      | .val _ => .wrong
      | r => r
    | .seq a b =>
      match eval decl G k env a with
      | .val _ => eval decl G k env b
      | r => r
    | .lam0 e => .val (.clo0 e env)
    | .lam x e => .val (.clo x e env)
    | .letE x a b =>
      match eval decl G k env a with
      | .val v => eval decl G k ((x, v) :: env) b
      | r => r
    | .app0 f =>
      match eval decl G k env f with
      | .val (.clo0 e env') => eval decl G k env' e
      | .val _ => .wrong
      | r => r
    | .app f a =>
      match eval decl G k env f with
      | .val g =>
        match eval decl G k env a with
        | .val v =>
          match g with
          | .clo x e env' => eval decl G k ((x, v) :: env') e
          | .ext g args => callExt decl G g args v
          | _ => .wrong
        | r => r
      | r => r
    | _ => .more

end Spec.Types
