import Verif.Spec.Lang
/-
When two function calls do the same, and what an action of the state and of the continuation monad is.
-/
namespace Spec.Lang
variable {W : Type}

/-- calling `f` with `as` does the same as calling `g` with `bs`: same results, same effects, in every state -/
def CallsSame (E : Ext W) (f : Val) (as : List Val) (g : Val) (bs : List Val) : Prop :=
  ∀ w r w', Apply E w f as r w' ↔ Apply E w g bs r w'

/-- a state action: given a state, it ends by passing a new state and a result to its continuation (or has no outcome) -/
def StateAction (E : Ext W) (m : Val) : Prop :=
  ∀ w s, (∃ s1 a w1, ∀ k r w2, Apply E w m [s, k] r w2 ↔ Apply E w1 k [s1, a] r w2) ∨
    ∀ k r w2, ¬ Apply E w m [s, k] r w2

/-- an action with a continuation: it does the same with continuations that do the same -/
def ContAction (E : Ext W) (m : Val) : Prop :=
  ∀ k k', (∀ a, CallsSame E k [a] k' [a]) → CallsSame E m [k] m [k']

/-- a function to state actions -/
def ToState (E : Ext W) (f : Val) : Prop :=
  ∀ w a, (∃ m w1, Apply E w f [a] m w1 ∧ StateAction E m) ∨ ∀ m w1, ¬ Apply E w f [a] m w1

/-- a function to actions with a continuation -/
def ToCont (E : Ext W) (f : Val) : Prop := ∀ w a m w1, Apply E w f [a] m w1 → ContAction E m

/-- the function `(lambda (x) (bind (f x) g))` -/
def kleisli (bind f g : Val) : Val :=
  .clo [.named "x"] (.app (.var (.named "bind")) [.app (.var (.named "f")) [.var (.named "x")], .var (.named "g")])
    [(.named "bind", bind), (.named "f", f), (.named "g", g)]

end Spec.Lang
