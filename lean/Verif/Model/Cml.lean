import Verif.Spec.Cml
/-
Model of the scheduler of /repo/lib/cml.cora. The calls that wait are counted: a frame of `schedule-loop` waits for
`schedule`. External schedulers (the event loop, see C63) are left out: `run-external-schedulers` answers false when
there are none. A `throw` leaves the task for the handler of its `try` (lib/cml.cora:27-31), which runs in the place of
the `try` (C26), so the task's own frames are not on the stack while another task runs.
-/
open Spec
namespace Cora.Cml

variable {T W : Type}

/-- what the machine is about to do: call `schedule`, or return to the innermost `schedule-loop` -/
inductive Mode where
  | schedule
  | ret
  deriving DecidableEq

/-- `frames` is the number of `schedule-loop` frames on the stack -/
structure St (T W : Type) where
  frames : Nat
  mode : Mode
  tasks : Tasks T W

/-- lib/cml.cora:64-74 `schedule-loop`: it calls `schedule` and waits for it -/
def St.loop (frames : Nat) (s : Tasks T W) : St T W := ⟨frames + 1, .schedule, s⟩

/-- lib/cml.cora:92-96 `yield` in the handler: the rest of the task is enqueued and `schedule-loop` is called -/
def St.yield (frames : Nat) (s : Tasks T W) (k : T) : St T W := St.loop frames ⟨s.queue ++ [k], s.world⟩

/-- lib/cml.cora:48-62 `schedule`: a task is dequeued and run in tail position. What it makes ready is enqueued (23-24
`enqueue-task`, 27-31 `spawn`). If it ends, `schedule` returns; if it yields, see above; if it blocks
(lib/cml.cora:156-169 `perform`), the handler calls `schedule` in tail position. -/
def St.scheduleStep (slice : T → W → Slice T W) (frames : Nat) (s : Tasks T W) : St T W :=
  match s.queue with
  | [] => ⟨frames, .ret, s⟩
  | t :: q =>
    let r := slice t s.world
    let s' : Tasks T W := ⟨q ++ r.ready, r.world⟩
    match r.pause with
    | .over => ⟨frames, .ret, s'⟩
    | .yields k => St.yield frames s' k
    | .blocks => ⟨frames, .schedule, s'⟩

/-- one step; `none`: `cml-entry` has returned. lib/cml.cora:66-73: after `schedule`, the loop ends when the queue is
empty, or calls itself in tail position. -/
def St.step (slice : T → W → Slice T W) (s : St T W) : Option (St T W) :=
  match s.mode, s.frames with
  | .schedule, n => some (St.scheduleStep slice n s.tasks)
  | .ret, 0 => none
  | .ret, n + 1 => if s.tasks.queue.isEmpty then some ⟨n, .ret, s.tasks⟩ else some (St.loop n s.tasks)

/-- lib/cml.cora:77-90 `cml-entry` -/
def entry (main : T) (w : W) : St T W := St.loop 0 ⟨[main], w⟩

/-- `n` steps, stopping at the end -/
def St.steps (slice : T → W → Slice T W) : Nat → St T W → St T W
  | 0, s => s
  | n + 1, s =>
    match s.step slice with
    | none => s
    | some s' => St.steps slice n s'

end Cora.Cml
