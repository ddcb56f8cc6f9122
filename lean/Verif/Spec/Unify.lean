/-
First-order terms, substitutions as systems of equations, unifiers.
-/
namespace Spec

/-- terms over atoms `A`: logic variables, atoms (including the empty list) and pairs -/
inductive LTerm (A : Type) where
  | var (n : Nat)
  | atom (a : A)
  | cons (a b : LTerm A)
  deriving DecidableEq

/-- replace every variable -/
def LTerm.inst {A : Type} (θ : Nat → LTerm A) : LTerm A → LTerm A
  | .var n => θ n
  | .atom a => .atom a
  | .cons a b => .cons (a.inst θ) (b.inst θ)

/-- `θ` solves the equations `x = t` of `s` -/
def Solves {A : Type} (θ : Nat → LTerm A) (s : List (Nat × LTerm A)) : Prop := ∀ e ∈ s, θ e.1 = e.2.inst θ

/-- the variables of a term -/
def LTerm.vars {A : Type} : LTerm A → List Nat
  | .var n => [n]
  | .atom _ => []
  | .cons a b => a.vars ++ b.vars

/-- a substitution without cycles: variables are bound to terms over variables of smaller rank -/
def Acyclic {A : Type} (s : List (Nat × LTerm A)) : Prop :=
  ∃ rank : Nat → Nat, ∀ e ∈ s, ∀ y ∈ e.2.vars, rank y < rank e.1

end Spec
