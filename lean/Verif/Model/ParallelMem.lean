import Verif.Model.Parallel
/-
The queues of a mailbox in memory, /repo/lib/parallel/internal.c:78-130, 132-140, 171-203: singly linked nodes from `malloc`, whose
contents are arbitrary at first and which are never freed. An address is a number, 0 is NULL. `none`: an assertion fails, or memory that
was not allocated is used.
-/
open Spec.Mailbox
namespace Cora.Parallel
variable {α : Type}

/-- the nodes allocated, and the contents of all memory as nodes: `next`, and a message or a receiver -/
structure Heap (α : Type) where
  used : List Nat
  next : Nat → Nat
  val : Nat → α ⊕ Nat

/-- internal.c:82-86 `struct queue` -/
structure Queue where
  head : Nat
  tail : Nat
  len : Nat

/-- one word written -/
def put {β : Type} (f : Nat → β) (a : Nat) (v : β) : Nat → β := fun x => if x = a then v else f x

/-- internal.c:105-119 `enqueueData`; internal.c:171-182 `enqueueBlocked` with its `malloc` (188) is the same. `malloc` picks an address;
what is in `next` of a new node is `junk`. -/
def enqueue (malloc junk : List Nat → Nat) (h : Heap α) (q : Queue) (v : α ⊕ Nat) : Option (Heap α × Queue) :=
  let n := malloc h.used
  let h := { used := n :: h.used, next := put h.next n (junk h.used), val := put h.val n v : Heap α }
  if q.len = 0 then some (h, ⟨n, n, 1⟩)
  else if q.tail ∈ h.used then some ({ h with next := put (put h.next q.tail n) n 0 }, ⟨q.head, n, q.len + 1⟩)
  else none

/-- internal.c:121-129 `dequeueData`; internal.c:195-203 `dequeueBlocked` is the same: the node taken out -/
def dequeue (h : Heap α) (q : Queue) : Option (Nat × Heap α × Queue) :=
  if q.len > 0 then
    if q.head ∈ h.used then
      let b := q.head
      some (b, { h with next := put h.next b 0 }, { q with head := h.next q.head, len := q.len - 1 })
    else none
  else none

/-- a mailbox in memory, with what receivers do as in `St` -/
structure MSt (α : Type) where
  heap : Heap α
  data : Queue
  blocked : Queue
  about : List Nat
  got : List (Nat × α)

/-- internal.c:229-242 `mailboxSend` -/
def sendM (malloc junk : List Nat → Nat) (extra v : α) (s : MSt α) : Option (MSt α) :=
  if s.blocked.len > 0 then
    match dequeue s.heap s.blocked with
    | some (b, h, q) =>
      match h.val b with
      | .inr r => some { s with heap := h, blocked := q, got := (r, extra) :: s.got }
      | .inl _ => none
    | none => none
  else
    match enqueue malloc junk s.heap s.data (.inl v) with
    | some (h, q) => some { s with heap := h, data := q }
    | none => none

/-- internal.c:244-257 `mailboxRecvTry` -/
def lookM [DecidableEq α] (fls : α) (r : Nat) (s : MSt α) : Option (MSt α) :=
  if s.data.len > 0 then
    match dequeue s.heap s.data with
    | some (b, h, q) =>
      match h.val b with
      | .inl v => if v = fls then some { s with heap := h, data := q, about := r :: s.about } else
          some { s with heap := h, data := q, got := (r, v) :: s.got }
      | .inr _ => none
    | none => none
  else some { s with about := r :: s.about }

/-- lib/parallel.cora:48-74 with internal.c:142-147, 163-168, 184-192 -/
def waitM (malloc junk : List Nat → Nat) (r : Nat) (s : MSt α) : Option (MSt α) :=
  if r ∈ s.about then
    let s := { s with about := s.about.erase r }
    if (0 : Int) > s.data.len then
      match dequeue s.heap s.data with
      | some (_, h, q) => some { s with heap := h, data := q }
      | none => none
    else
      match enqueue malloc junk s.heap s.blocked (.inr r) with
      | some (h, q) => some { s with heap := h, blocked := q }
      | none => none
  else some s

def stepM [DecidableEq α] (malloc junk : List Nat → Nat) (fls extra : α) (s : MSt α) : Act α → Option (MSt α)
  | .send v => sendM malloc junk extra v s
  | .look r => lookM fls r s
  | .wait r => waitM malloc junk r s

/-- internal.c:219-226 `mailboxMake`, and then a schedule -/
def runM [DecidableEq α] (malloc junk : List Nat → Nat) (fls extra : α) (h : Heap α) (acts : List (Act α)) : Option (MSt α) :=
  acts.foldlM (stepM malloc junk fls extra) ⟨h, ⟨0, 0, 0⟩, ⟨0, 0, 0⟩, [], []⟩

end Cora.Parallel
