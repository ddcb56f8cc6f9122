/-
A sequence that grows and shrinks at its end.
-/
namespace Spec.Growable

/-- what is done with it -/
inductive Op (α : Type) where
  | append (a : α)
  | look (i : Nat)
  | replace (i : Nat) (a : α)
  | pop

/-- the sequence after an operation, and what it answers; undefined where there is no such element -/
def perform {α : Type} (l : List α) : Op α → Option (List α × Option α)
  | .append a => some (l ++ [a], none)
  | .look i => if h : i < l.length then some (l, some l[i]) else none
  | .replace i a => if i < l.length then some (l.set i a, none) else none
  | .pop => if h : l ≠ [] then some (l.dropLast, some (l.getLast h)) else none

/-- operations one after the other: the sequence in the end, the answers, and the greatest length on the way -/
inductive Performs {α : Type} : List α → List (Op α) → List α → List (Option α) → Nat → Prop where
  | nil (l) : Performs l [] l [] l.length
  | cons {l op l1 a ops l2 as n} : perform l op = some (l1, a) → Performs l1 ops l2 as n → Performs l (op :: ops) l2 (a :: as) (max l.length n)

/-- the elements that are put into it -/
def Op.elem? {α : Type} : Op α → Option α
  | .append a => some a
  | .replace _ a => some a
  | _ => none

end Spec.Growable
