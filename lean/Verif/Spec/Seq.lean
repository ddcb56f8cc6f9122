import Verif.Model.Queue
/-
Specifications: arrays, sequences and first-in-first-out queues.
-/
namespace Spec
open Cora

/-- contents of position `i` after a sequence of stores (oldest first), starting from `init` -/
def lastStore {α : Type} (init : α) : List (Int × α) → Int → α
  | [], _ => init
  | (j, x) :: later, i => lastStore (if i = j then x else init) later i

/-- the abstract FIFO queue: a list, oldest first. `none`: dequeue of an empty queue. -/
def fifo {α : Type} (q : List α) : List (QOp α) → Option (List α × List α)
  | [] => some ([], q)
  | .enq x :: r => fifo (q ++ [x]) r
  | .deq :: r =>
    match q with
    | [] => none
    | x :: q => (fifo q r).map (fun (xs, q) => (x :: xs, q))

end Spec
