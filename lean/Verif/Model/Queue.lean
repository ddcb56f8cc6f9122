/-
Model of /repo/lib/queue.cora: a queue made of two lists and a counter held in a vector.
-/
namespace Cora

/-- lib/queue.cora:6-12: the three slots of the vector: 0 the input stack, 1 the output stack, 2 the
size. The elements are arbitrary values. -/
structure Queue (α : Type) where
  inS : List α
  outS : List α
  size : Int
deriving Repr, DecidableEq

/-- lib/queue.cora:6-12 `queue-make` -/
def Queue.make {α : Type} : Queue α := ⟨[], [], 0⟩

/-- lib/queue.cora:14-18 `enqueue` -/
def Queue.enqueue {α : Type} (q : Queue α) (x : α) : Queue α :=
  let size := q.size
  let q := { q with size := size + 1 }
  { q with inS := x :: q.inS }

/-- lib/queue.cora:20-34 `dequeue`. `none`: `car` is applied to the empty list (the compiled primitive is
an unchecked memory read). -/
def Queue.dequeue {α : Type} (q : Queue α) : Option (α × Queue α) :=
  let size := q.size
  let q := if size > 0 then { q with size := size - 1 } else q
  let q := if q.outS.isEmpty then
      let q := { q with outS := q.inS.reverse }
      { q with inS := [] }
    else q
  match q.outS with
  | [] => none
  | ret :: rest => some (ret, { q with outS := rest })

/-- lib/queue.cora:36-37 `queue-empty?` -/
def Queue.isEmpty {α : Type} (q : Queue α) : Bool := q.inS.isEmpty && q.outS.isEmpty

/-- lib/queue.cora:39-40 `queue-len` -/
def Queue.len {α : Type} (q : Queue α) : Int := q.size

/-- an operation on a queue -/
inductive QOp (α : Type) where
  | enq (x : α)
  | deq

/-- run a history; the results of the dequeues in order. `none`: some dequeue read the head of an empty
list. -/
def runQ {α : Type} (q : Queue α) : List (QOp α) → Option (List α × Queue α)
  | [] => some ([], q)
  | .enq x :: r => runQ (q.enqueue x) r
  | .deq :: r => do
    let (x, q) ← q.dequeue
    let (xs, q) ← runQ q r
    some (x :: xs, q)

end Cora
