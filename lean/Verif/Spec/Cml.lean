/-
Cooperative tasks: a task runs until it ends, yields or blocks; on the way it changes the world and makes tasks ready
(new ones, or ones that were blocked).
-/
namespace Spec

/-- how a task gives up the processor: it is over, it goes on later as `t`, or it waits until something makes it
ready (what it needs for that is part of the world) -/
inductive Pause (T : Type) where
  | over
  | yields (t : T)
  | blocks

/-- what a task does in one go -/
structure Slice (T W : Type) where
  world : W
  ready : List T
  pause : Pause T

/-- the tasks that are ready, first come first served, and the world -/
structure Tasks (T W : Type) where
  queue : List T
  world : W

/-- the first task that is ready runs; the tasks it makes ready go to the end of the queue, and then it goes there
itself if it yields -/
def Tasks.turn {T W : Type} (slice : T → W → Slice T W) (s : Tasks T W) : Tasks T W :=
  match s.queue with
  | [] => s
  | t :: q =>
    let r := slice t s.world
    match r.pause with
    | .yields t' => ⟨q ++ r.ready ++ [t'], r.world⟩
    | _ => ⟨q ++ r.ready, r.world⟩

/-- `n` turns -/
def Tasks.turns {T W : Type} (slice : T → W → Slice T W) : Nat → Tasks T W → Tasks T W
  | 0, s => s
  | n + 1, s => Tasks.turns slice n (s.turn slice)

end Spec
