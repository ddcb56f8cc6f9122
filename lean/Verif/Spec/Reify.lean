import Verif.Spec.Unify
/-
How the answers of a logic program are shown: the term that a variable stands for, with its free variables numbered in the order in which
they first occur.
-/
namespace Spec.Reify
variable {A : Type}

/-- what the equations `s` say about the variable `x`: in all their solutions `x` is `t`, and `t` has only variables that are free in `s` -/
structure Answer (s : List (Nat × LTerm A)) (x : Nat) (t : LTerm A) : Prop where
  says : ∀ θ : Nat → LTerm A, Solves θ s → θ x = t.inst θ
  free : ∀ y ∈ t.vars, ∀ e ∈ s, e.1 ≠ y

/-- the elements of a list in the order in which they first occur -/
def firsts (l : List Nat) : List Nat := l.foldl (fun acc x => if x ∈ acc then acc else acc ++ [x]) []

/-- the term with the names 0, 1, 2, … for its variables in the order in which they first occur -/
def shown (name : Nat → A) (t : LTerm A) : LTerm A := t.inst fun x => .atom (name ((firsts t.vars).idxOf x))

/-- the same terms up to the names of variables: `f` takes the variables of one to those of the other, different ones to different ones -/
def Renamed (t t' : LTerm A) : Prop :=
  ∃ f : Nat → Nat, (∀ x ∈ t.vars, ∀ y ∈ t.vars, f x = f y → x = y) ∧ t' = t.inst fun x => .var (f x)

/-- an atom of a term -/
def HasAtom : LTerm A → A → Prop
  | .var _, _ => False
  | .atom b, a => b = a
  | .cons t u, a => HasAtom t a ∨ HasAtom u a

end Spec.Reify
