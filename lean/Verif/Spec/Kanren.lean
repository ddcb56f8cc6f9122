/-
Goals of a relational program and what they mean, without any search.
-/
namespace Spec

/-- a state of the search: what is known (`σ`) and the number of the next fresh variable -/
abbrev KState (σ : Type) := σ × Nat

/-- goals over named relation calls `C`: a test that may add knowledge, a fresh variable, alternatives, both, and
a call that is not run before the search comes to it -/
inductive Goal (σ C : Type) where
  | prim (f : σ → Option σ)
  | fresh (f : Nat → Goal σ C)
  | disj (a b : Goal σ C)
  | conj (a b : Goal σ C)
  | later (c : C)

/-- `r` is a solution of a goal from state `s`; `P` gives the goal that a relation call stands for -/
inductive Sol {σ C : Type} (P : C → Goal σ C) : Goal σ C → KState σ → KState σ → Prop
  | prim {f : σ → Option σ} {s r : σ} {n : Nat} : f s = some r → Sol P (.prim f) (s, n) (r, n)
  | fresh {f : Nat → Goal σ C} {s : σ} {n : Nat} {r : KState σ} :
      Sol P (f n) (s, n + 1) r → Sol P (.fresh f) (s, n) r
  | left {a b : Goal σ C} {s r : KState σ} : Sol P a s r → Sol P (.disj a b) s r
  | right {a b : Goal σ C} {s r : KState σ} : Sol P b s r → Sol P (.disj a b) s r
  | conj {a b : Goal σ C} {s r t : KState σ} : Sol P a s r → Sol P b r t → Sol P (.conj a b) s t
  | later {c : C} {s r : KState σ} : Sol P (P c) s r → Sol P (.later c) s r

/-- no call is put off anywhere in the goal -/
inductive Prompt {σ C : Type} : Goal σ C → Prop
  | prim (f : σ → Option σ) : Prompt (.prim f)
  | fresh {f : Nat → Goal σ C} : (∀ n, Prompt (f n)) → Prompt (.fresh f)
  | disj {a b : Goal σ C} : Prompt a → Prompt b → Prompt (.disj a b)
  | conj {a b : Goal σ C} : Prompt a → Prompt b → Prompt (.conj a b)

end Spec
