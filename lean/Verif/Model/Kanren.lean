import Verif.Spec.Kanren
import Verif.Model.Unify
/-
Model of the search in /repo/lib/ukanren.cora:58-157. A stream of states is the empty list, a pair of a state and a
stream, or a function without parameters. The functions that occur are the three that the library makes; they are
named by their bodies and captured variables. `C` names the goal expressions under `Zzz`, `P` evaluates them;
evaluating a goal expression is taken to end. `rec` says whether `procedure?` answers true for a function.
`none` is a failed match (no clause of a `func` fits).
-/
open Spec
namespace Cora.Kanren

variable {σ C : Type}

mutual
/-- the values that flow through the search -/
inductive Stm (σ C : Type) where
  | nil
  | cons (h : KState σ) (t : Stm σ C)
  | fn (k : Fn σ C)
/-- functions without parameters: `(lambda () (mplus y (x)))` (line 89), `(lambda () (bind (x) y))` (line 94) and
`(lambda () (g state))` (lines 97-102) -/
inductive Fn (σ C : Type) where
  | mplus (y : Stm σ C) (x : Fn σ C)
  | bind (x : Fn σ C) (y : Goal σ C)
  | zzz (c : C) (s : KState σ)
end

/-- lib/ukanren.cora:9-11 `procedure?`: it asks for a list that starts with the symbol `lambda`. A function is not
a list (C01), and the lists here start with a state, which is a pair. -/
def procedure? : Stm σ C → Bool := fun _ => false

/-- what a caller expects of `procedure?` -/
def isFn : Stm σ C → Bool
  | .fn _ => true
  | _ => false

variable (proc : Stm σ C → Bool)

/-- lib/ukanren.cora:87-90 `mplus` -/
def mplus : Stm σ C → Stm σ C → Option (Stm σ C)
  | .nil, x => some x
  | .fn k, y => if proc (.fn k) then some (.fn (.mplus y k)) else none
  | .cons h t, z => (mplus t z).map (.cons h)

/-- lib/ukanren.cora:92-95 `bind`; `g` is the goal `y` and `f` what it does when it is called -/
def bind (f : KState σ → Option (Stm σ C)) (g : Goal σ C) : Stm σ C → Option (Stm σ C)
  | .nil => some .nil
  | .fn k => if proc (.fn k) then some (.fn (.bind k g)) else none
  | .cons h t => do
    let a ← f h
    let b ← bind f g t
    mplus proc a b

/-- calling a goal with a state. lib/ukanren.cora:58-65 `==` (a test that gives at most one state), 67-73
`call/fresh`, 75-77 `disj`, 79-81 `conj`, 97-102 `Zzz` -/
def call : Goal σ C → KState σ → Option (Stm σ C)
  | .prim f, s =>
    match f s.1 with
    | none => some .nil
    | some r => some (.cons (r, s.2) .nil)
  | .fresh f, s => call (f s.2) (s.1, s.2 + 1)
  | .disj a b, s => do mplus proc (← call a s) (← call b s)
  | .conj a b, s => do bind proc (call b) b (← call a s)
  | .later c, s => some (.fn (.zzz c s))

variable (P : C → Goal σ C)

/-- calling a function without parameters -/
def force : Fn σ C → Option (Stm σ C)
  | .mplus y x => do mplus proc y (← force x)
  | .bind x g => do bind proc (call proc g) g (← force x)
  | .zzz c s => call proc (P c) s

/-- how a computation ended: with a value, with a failed match, or not within the fuel -/
inductive Res (α : Type) where
  | done (a : α)
  | stuck
  | more

/-- lib/ukanren.cora:138-141 `pull`; the fuel bounds the calls of functions -/
def pull : Nat → Stm σ C → Res (Stm σ C)
  | _, .nil => .done .nil
  | _, .cons h t => .done (.cons h t)
  | 0, .fn k => if proc (.fn k) then .more else .done (.fn k)
  | n + 1, .fn k =>
    if proc (.fn k) then
      match force proc P k with
      | none => .stuck
      | some s => pull n s
    else .done (.fn k)

/-- lib/ukanren.cora:150-157 `take` and `take-h`; every `pull` has the same fuel -/
def take (fuel : Nat) : Nat → Stm σ C → Res (List (KState σ))
  | 0, _ => .done []
  | n + 1, s =>
    match pull proc P fuel s with
    | .more => .more
    | .stuck => .stuck
    | .done .nil => .done []
    | .done (.fn _) => .stuck
    | .done (.cons h t) =>
      match take fuel n t with
      | .done l => .done (h :: l)
      | r => r

/-- lib/ukanren.cora:143-148 `take-all` and `take-all-h`; the second fuel bounds the number of answers -/
def takeAll (fuel : Nat) : Nat → Stm σ C → Res (List (KState σ))
  | 0, _ => .more
  | n + 1, s =>
    match pull proc P fuel s with
    | .more => .more
    | .stuck => .stuck
    | .done .nil => .done []
    | .done (.fn _) => .stuck
    | .done (.cons h t) =>
      match takeAll fuel n t with
      | .done l => .done (h :: l)
      | r => r

/-- lib/ukanren.cora:104-109 `conj+`, for goal expressions named by `c` and `cs` -/
def conjPlus : C → List C → Goal σ C
  | c, [] => .later c
  | c, c' :: cs => .conj (.later c) (conjPlus c' cs)

/-- lib/ukanren.cora:111-116 `disj+` -/
def disjPlus : C → List C → Goal σ C
  | c, [] => .later c
  | c, c' :: cs => .disj (.later c) (disjPlus c' cs)

/-- lib/ukanren.cora:118-124 `fresh` with `n` variables. The goal expressions see the variables: the body is a
function of them. -/
def freshPlus : Nat → (List Nat → C × List C) → Goal σ C
  | 0, body => conjPlus (body []).1 (body []).2
  | n + 1, body => .fresh fun x => freshPlus n fun xs => body (x :: xs)

/-- lib/ukanren.cora:58-65 `==` as a test: `n` is fuel for `unify` (Model/Unify.lean) -/
def eqGoal {A : Type} [DecidableEq A] (n : Nat) (u v : LTerm A) : Goal (Unify.Subst A) C :=
  .prim fun s =>
    match Unify.unify n u v s with
    | some (e :: r) => some (e :: r)
    | _ => none

end Cora.Kanren
