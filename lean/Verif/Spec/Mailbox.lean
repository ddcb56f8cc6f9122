/-
Mailboxes and their registry: what happens, and what a name stands for.
-/
namespace Spec.Mailbox

/-- what threads do with a mailbox, in the order in which they do it: send a message; a receiver looks whether there is one;
a receiver that found none gets in the line of those who wait -/
inductive Act (α : Type) where
  | send (v : α)
  | look (r : Nat)
  | wait (r : Nat)

/-- the messages sent, in order -/
def sent {α : Type} : List (Act α) → List α
  | [] => []
  | .send v :: r => v :: sent r
  | _ :: r => sent r

/-- the mailbox first published under a name -/
def firstPublished {μ : Type} (name : List UInt8) : List (List UInt8 × μ) → Option μ
  | [] => none
  | (n, m) :: r => if n = name then some m else firstPublished name r

end Spec.Mailbox
