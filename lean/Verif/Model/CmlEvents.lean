import Verif.Spec.Events
import Verif.Model.Cml
/-
Model of the scheduler of /repo/lib/cml.cora with its external schedulers (Model/Cml leaves them out). An external
scheduler is a function of the timeout: 0 looks, -1 waits. Simplification: the handlers that it calls make tasks ready
and change the world; they do not throw and do not register schedulers.
-/
open Spec
namespace Cora.CmlEvents

open Cml (Mode)

variable {T W : Type}

/-- `scheds` is the list under the key `cora/lib/cml#external-schedulers`, `frames` the number of `schedule-loop`
frames on the stack -/
structure St (T W : Type) where
  frames : Nat
  mode : Mode
  tasks : Tasks T W
  scheds : List (Source T W)

/-- lib/cml.cora:36-37 `register-scheduler` -/
def register (scheds : List (Source T W)) (fn : Source T W) : List (Source T W) := fn :: scheds

/-- lib/cml.cora:39-44 `run-external-schedulers` with the timeout 0: `foldl` (lib/sys.cora:22-24) over the list; every
scheduler is called, and then `or` is taken -/
def runLook (scheds : List (Source T W)) (s : Tasks T W) : Bool × Tasks T W :=
  scheds.foldl (fun acc sched => let res := sched.look acc.2.world; (acc.1 || res.more, acc.2.sees res)) (false, s)

/-- lib/cml.cora:39-44 `run-external-schedulers` with the timeout -1; `none`: a scheduler never returns. What it
answers is not used (lib/cml.cora:56). -/
def runWait (scheds : List (Source T W)) (s : Tasks T W) : Option (Tasks T W) :=
  scheds.foldl (fun acc sched => acc.bind fun s => (sched.wait s.world).map s.sees) (some s)

/-- what a step leads to: `cml-entry` has returned, the program hangs, or it goes on -/
inductive Next (T W : Type) where
  | ends
  | hangs
  | goes (s : St T W)

/-- lib/cml.cora:64-74 `schedule-loop`: it calls `schedule` and waits for it -/
def loop (frames : Nat) (s : Tasks T W) (scheds : List (Source T W)) : St T W := ⟨frames + 1, .schedule, s, scheds⟩

/-- lib/cml.cora:48-62 `schedule`: the external schedulers are run. If no task is ready then, they are run again and
waited for if one of them answered true. Else a task is dequeued and run; how it ends is as in Model/Cml. -/
def schedule (act : T → W → Turn T W) (frames : Nat) (s : Tasks T W) (scheds : List (Source T W)) : Next T W :=
  let (moreWork, s) := runLook scheds s
  match s.queue with
  | [] =>
    if moreWork then
      match runWait scheds s with
      | none => .hangs
      | some s => .goes ⟨frames, .ret, s, scheds⟩
    else .goes ⟨frames, .ret, s, scheds⟩
  | t :: q =>
    let r := act t s.world
    let scheds := r.joins.foldl register scheds
    let s : Tasks T W := ⟨q ++ r.did.ready, r.did.world⟩
    match r.did.pause with
    | .over => .goes ⟨frames, .ret, s, scheds⟩
    | .yields k => .goes (loop frames ⟨s.queue ++ [k], s.world⟩ scheds)
    | .blocks => .goes ⟨frames, .schedule, s, scheds⟩

/-- one step. lib/cml.cora:66-73: after `schedule`, the loop ends when the queue is empty and, asked then, no external
scheduler answers true; or it calls itself in tail position. -/
def step (act : T → W → Turn T W) (s : St T W) : Next T W :=
  match s.mode, s.frames with
  | .schedule, n => schedule act n s.tasks s.scheds
  | .ret, 0 => .ends
  | .ret, n + 1 =>
    if s.tasks.queue.isEmpty then
      let (more, t) := runLook s.scheds s.tasks
      if more then .goes (loop n t s.scheds) else .goes ⟨n, .ret, t, s.scheds⟩
    else .goes (loop n s.tasks s.scheds)

/-- lib/cml.cora:77-90 `cml-entry`: 17-20 `task-queue-init` empties the list of schedulers, the event loop is
registered if lib/async is loaded (`init`), and `main` is spawned -/
def entry (init : List (Source T W)) (main : T) (w : W) : St T W := loop 0 ⟨[main], w⟩ (init.foldl register [])

/-- `n` steps, stopping at the end or when the program hangs -/
def steps (act : T → W → Turn T W) : Nat → St T W → St T W
  | 0, s => s
  | n + 1, s =>
    match step act s with
    | .goes s' => steps act n s'
    | _ => s

end Cora.CmlEvents
