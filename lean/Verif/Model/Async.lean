import Verif.Spec.Async
/-
Model of the event loop of /repo/lib/async.cora and of /repo/lib/epoll.c. Connections are numbers, which also stand
for their file descriptors. A callback is named by the handler and the task it resumes. `none` is a trap.
-/
open Spec
namespace Cora.Async

variable {T : Type}

/-- what a `prev` field refers to: the head node of the list or a connection -/
inductive Ref where
  | head
  | conn (c : Nat)
  deriving DecidableEq

/-- the callbacks of lib/async.cora: `recv-handler`, the callback of `accept-op`, `send-handler` -/
inductive Cb (T : Type) where
  | recv (t : T)
  | accept (t : T)
  | send (t : T)
  deriving DecidableEq

/-- the task that a callback resumes -/
def Cb.task : Cb T → T
  | .recv t => t
  | .accept t => t
  | .send t => t

/-- lib/async.cora:15-28 the record `<conn>`; `none` is `()` -/
structure Conn (T : Type) where
  next : Option Nat
  prev : Option Ref
  mode : List Mode
  rcb : Option (Cb T)
  wcb : Option (Cb T)

/-- lib/async.cora:28-36 `conn-make` -/
def Conn.make : Conn T := { next := none, prev := none, mode := [], rcb := none, wcb := none }

/-- the event loop: the `next` field of its head node (lib/async.cora:38-52), the connections, what the operating
system watches, which descriptors are closed, and the tasks given to `spawn` -/
structure Loop (T : Type) where
  head : Option Nat
  conn : Nat → Conn T
  poll : Nat → Option (List Mode)
  closed : Nat → Bool
  ready : List T

/-- lib/async.cora:44-49, 267-273: an empty loop -/
def Loop.init : Loop T :=
  { head := none, conn := fun _ => .make, poll := fun _ => none, closed := fun _ => false, ready := [] }

/-- change one connection -/
def Loop.upd (L : Loop T) (c : Nat) (f : Conn T → Conn T) : Loop T :=
  { L with conn := fun d => if d = c then f (L.conn d) else L.conn d }

/-- `conn-set-next!`, which is also used for the head node: the field has the same index there -/
def Loop.setNext (L : Loop T) (r : Ref) (n : Option Nat) : Loop T :=
  match r with
  | .head => { L with head := n }
  | .conn c => L.upd c fun x => { x with next := n }

/-- `conn-set-prev!` -/
def Loop.setPrev (L : Loop T) (c : Nat) (r : Option Ref) : Loop T := L.upd c fun x => { x with prev := r }

/-- lib/async.cora:54-56 `conn-not-in-event-loop?` -/
def Loop.notIn (L : Loop T) (c : Nat) : Bool := (L.conn c).next.isNone && (L.conn c).prev.isNone

/-- lib/async.cora:58-66 `add-to-event-loop-conns` -/
def Loop.addConn (L : Loop T) (c : Nat) : Loop T :=
  let L := L.setNext (.conn c) L.head
  let L := match L.head with
    | none => L
    | some d => L.setPrev d (some (.conn c))
  let L := L.setNext .head (some c)
  L.setPrev c (some .head)

/-- lib/async.cora:68-76 `del-from-event-loop-conns` -/
def Loop.delConn (L : Loop T) (c : Nat) : Option (Loop T) :=
  match (L.conn c).prev with
  | none => none
  | some p =>
    let L := L.setNext p (L.conn c).next
    let L := match (L.conn c).next with
      | none => L
      | some d => L.setPrev d (some p)
    let L := L.setNext (.conn c) none
    some (L.setPrev c none)

/-- lib/epoll.c:8-30 `pollReadAdd`, `pollWriteAdd`: fails (with a message) if the descriptor is watched or closed -/
def Loop.pollAdd (L : Loop T) (c : Nat) (m : Mode) : Loop T :=
  if (L.poll c).isNone && !L.closed c then
    { L with poll := fun d => if d = c then some [m] else L.poll d }
  else L

/-- lib/epoll.c:32-53 `pollCtlMod`: fails (with a message) if the descriptor is not watched -/
def Loop.pollMod (L : Loop T) (c : Nat) (ms : List Mode) : Loop T :=
  if (L.poll c).isSome then { L with poll := fun d => if d = c then some ms else L.poll d } else L

/-- lib/epoll.c:55-61 `pollCtlDel` and lib/net.c:232-238 `net-close` -/
def Loop.pollDel (L : Loop T) (c : Nat) : Loop T :=
  { L with poll := fun d => if d = c then none else L.poll d, closed := fun d => if d = c then true else L.closed d }

/-- lib/async.cora:83-85: set the callback -/
def Loop.setCb (L : Loop T) (c : Nat) (m : Mode) (cb : Option (Cb T)) : Loop T :=
  match m with
  | .read => L.upd c fun x => { x with rcb := cb }
  | .write => L.upd c fun x => { x with wcb := cb }

/-- lib/async.cora:81-106 `event-loop-add` -/
def Loop.add (L : Loop T) (c : Nat) (m : Mode) (cb : Cb T) : Loop T :=
  let L := L.setCb c m (some cb)
  if L.notIn c then
    let L := L.addConn c
    let L := L.pollAdd c m
    L.upd c fun x => { x with mode := [m] }
  else if m ∈ (L.conn c).mode then L
  else
    let ms := m :: (L.conn c).mode
    let L := L.pollMod c ms
    L.upd c fun x => { x with mode := ms }

/-- lib/async.cora:115-122 `conn-close` -/
def Loop.close (L : Loop T) (c : Nat) : Option (Loop T) :=
  if L.notIn c then some (L.pollDel c) else (L.pollDel c).delConn c

/-- lib/cml.cora:26-31 `spawn` -/
def Loop.spawn (L : Loop T) (t : T) : Loop T := { L with ready := L.ready ++ [t] }

/-- lib/async.cora:128-143 `recv-handler`; `blocks` says whether `net-recv` could not go on -/
def Loop.recvHandler (L : Loop T) (c : Nat) (blocks : Bool) (t : T) : Loop T :=
  if blocks then L.add c .read (.recv t) else (L.setCb c .read none).spawn t

/-- lib/async.cora:158-178 `send-handler` -/
def Loop.sendHandler (L : Loop T) (c : Nat) (blocks : Bool) (t : T) : Loop T :=
  if blocks then L.add c .write (.send t)
  else
    let L := L.setCb c .write none
    let L := L.pollMod c ((L.conn c).mode.filter (· ≠ .write))
    L.spawn t

/-- lib/async.cora:209-222, the callback of `accept-op` (it does not ask whether `accept` could go on) -/
def Loop.acceptHandler (L : Loop T) (c : Nat) (t : T) : Loop T := (L.setCb c .read none).spawn t

/-- run a callback -/
def Loop.call (L : Loop T) (c : Nat) (blocks : Bool) : Cb T → Loop T
  | .recv t => L.recvHandler c blocks t
  | .accept t => L.acceptHandler c t
  | .send t => L.sendHandler c blocks t

/-- lib/async.cora:246-262, the body of the loop in `scheduler`, for one event. The system reports only what it
watches (lib/epoll.c:63-92 `poll`). -/
def Loop.event (L : Loop T) (c : Nat) (m : Mode) (blocks : Bool) : Loop T :=
  if m ∈ (L.poll c).getD [] then
    match (match m with | .read => (L.conn c).rcb | .write => (L.conn c).wcb) with
    | none => L
    | some cb => L.call c blocks cb
  else L

/-- one operation; lib/async.cora:147-151, 204-223, 187-195 for the three that wait -/
def step (L : Loop T) : LoopOp T → Option (Loop T)
  | .recv c t => some (L.add c .read (.recv t))
  | .accept c t => some (L.add c .read (.accept t))
  | .send c t => some (L.add c .write (.send t))
  | .ready c m b => some (L.event c m b)
  | .close c => L.close c

/-- a history -/
def run (L : Loop T) : List (LoopOp T) → Option (Loop T)
  | [] => some L
  | o :: r => do run (← step L o) r

/-- lib/async.cora:228-235 `blocked-queue-empty?`; the fuel bounds the loop -/
def blockedQueueEmpty (L : Loop T) : Nat → Option Nat → Option Bool
  | 0, _ => none
  | _ + 1, none => some true
  | n + 1, some c =>
    if (L.conn c).rcb.isNone && (L.conn c).wcb.isNone then blockedQueueEmpty L n (L.conn c).next else some false

end Cora.Async
