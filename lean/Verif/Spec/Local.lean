import Verif.Spec.Lists
/-
What thread-local variables promise: each machine (a running instance of the interpreter) has its own variables; a variable
holds what that machine last set it to.
-/
namespace Spec.Local

/-- what happens: a machine starts at an address, or the machine at an address sets a variable -/
inductive Event (α : Type) where
  | start (m : Nat)
  | set (m : Nat) (key val : V α)

/-- what the variable holds, after the events given with the latest first: what the machine last set it to since it started -/
def lastSet {α : Type} [DecidableEq α] (m : Nat) (key : V α) : List (Event α) → Option (V α)
  | [] => none
  | .start m' :: r => if m' = m then none else lastSet m key r
  | .set m' key' val :: r => if m' = m ∧ key' = key then some val else lastSet m key r

/-- the machine has started -/
def started {α : Type} (m : Nat) (h : List (Event α)) : Prop := Event.start m ∈ h

/-- only machines that have started set variables -/
def proper {α : Type} : List (Event α) → Prop
  | [] => True
  | .start _ :: r => proper r
  | .set m _ _ :: r => started m r ∧ proper r

end Spec.Local
