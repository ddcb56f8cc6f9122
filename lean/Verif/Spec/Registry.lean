import Verif.Spec.Mailbox
/-
A registry of mailboxes used by several procs at the same time: what happens, as the callers see it.
-/
namespace Spec.Registry

/-- why the process ended: no place left in the registry; a read through a null pointer; an assertion -/
inductive Cause where
  | full | null | assertion
deriving DecidableEq

inductive Event (μ : Type) where
  /-- proc `t` calls `(mailbox-publish name m)` -/
  | publishing (t : Nat) (name : List UInt8) (m : μ)
  /-- that call returns -/
  | published (t : Nat) (name : List UInt8) (m : μ)
  /-- proc `t` calls `(mailbox-resolve name)` -/
  | resolving (t : Nat) (name : List UInt8)
  /-- that call returns a mailbox, or `()` -/
  | resolved (t : Nat) (name : List UInt8) (answer : Option μ)
  /-- the whole process ends while proc `t` is inside of a call -/
  | crashed (t : Nat) (why : Cause)
deriving DecidableEq

/-- the publications that have returned, first one first; the events are given last one first -/
def completed {μ : Type} : List (Event μ) → List (List UInt8 × μ)
  | [] => []
  | .published _ name m :: before => completed before ++ [(name, m)]
  | _ :: before => completed before

end Spec.Registry
