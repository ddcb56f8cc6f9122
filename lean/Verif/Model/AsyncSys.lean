import Verif.Model.Async
import Verif.Model.Watch
/-
The event loop of /repo/lib/async.cora together with the C code that it calls, /repo/lib/epoll.c or /repo/lib/kqueue.c (Model/Watch). The tables of the
kernel take the place of the fields `poll` and `closed` of `Loop`, which are not used here. A connection stands for its descriptor; none is reused.
-/
open Spec
namespace Cora.Async
variable {T K : Type}

/-- the C functions behind `net-poll-add`, `net-poll-mod`, `net-poll-del` and `net-close`, and whether `net-poll` would report a connection if it
(alone) became ready for something; `none`: undefined behaviour -/
structure Sys (K : Type) where
  start : K
  add : K → Nat → Mode → Option K
  mod : K → Nat → List Mode → Option K
  del : K → Nat → Option K
  close : K → Nat → Option K
  reports : K → Nat → Mode → Bool

/-- the two kinds of modes -/
def Mode.watch : Mode → Spec.Watch.Mode
  | .read => .read
  | .write => .write

/-- `net-poll` on Linux, lib/net.c:148-153 -/
def epollReports (k : Watch.Epoll.Kernel Nat) (c : Nat) (m : Mode) : Bool :=
  ((Watch.Epoll.poll k (fun fd => if fd = c then (match m with | .read => Watch.Epoll.EPOLLIN | .write => Watch.Epoll.EPOLLOUT) else 0)
    [.events [c]]).getD []).contains (c, Mode.watch m)

/-- `net-poll` on BSD and macOS -/
def kqueueReports (k : Watch.Kqueue.Kernel Nat) (c : Nat) (m : Mode) : Bool :=
  ((Watch.Kqueue.poll k (fun fd n => fd == c && n == Mode.watch m) [.events [c]]).getD []).contains (c, Mode.watch m)

/-- lib/epoll.c; all descriptors are open at first -/
def epollSys : Sys (Watch.Epoll.Kernel Nat) :=
  { start := ⟨fun _ => true, fun _ => none⟩
    add := fun k c m => some (Watch.Epoll.step k (.add c (Mode.watch m) c))
    mod := fun k c ms => some (Watch.Epoll.step k (.mod c (ms.map fun m => some (Mode.watch m)) c))
    del := fun k c => some (Watch.Epoll.step k (.del c))
    close := fun k c => some (Watch.Epoll.step k (.closed c))
    reports := epollReports }

/-- lib/kqueue.c -/
def kqueueSys : Sys (Watch.Kqueue.Kernel Nat) :=
  { start := ⟨fun _ => true, fun _ _ => none⟩
    add := fun k c m => Watch.Kqueue.step k (.add c (Mode.watch m) c)
    mod := fun k c ms => Watch.Kqueue.step k (.mod c (ms.map fun m => some (Mode.watch m)) c)
    del := fun k c => Watch.Kqueue.step k (.del c)
    close := fun k c => Watch.Kqueue.step k (.closed c)
    reports := kqueueReports }

/-- the event loop and the kernel -/
structure On (T K : Type) where
  loop : Loop T
  k : K

/-- lib/async.cora:81-106 `event-loop-add` -/
def On.add (S : Sys K) (x : On T K) (c : Nat) (m : Mode) (cb : Cb T) : Option (On T K) :=
  let L := x.loop.setCb c m (some cb)
  if L.notIn c then do
    let k ← S.add x.k c m
    some ⟨(L.addConn c).upd c fun y => { y with mode := [m] }, k⟩
  else if m ∈ (L.conn c).mode then some ⟨L, x.k⟩
  else do
    let ms := m :: (L.conn c).mode
    let k ← S.mod x.k c ms
    some ⟨L.upd c fun y => { y with mode := ms }, k⟩

/-- lib/async.cora:115-122 `conn-close` -/
def On.close (S : Sys K) (x : On T K) (c : Nat) : Option (On T K) :=
  if x.loop.notIn c then do
    let k ← S.close x.k c
    some ⟨x.loop, k⟩
  else do
    let k ← S.del x.k c
    let k ← S.close k c
    let L ← x.loop.delConn c
    some ⟨L, k⟩

/-- lib/async.cora:128-143 `recv-handler` -/
def On.recvHandler (S : Sys K) (x : On T K) (c : Nat) (blocks : Bool) (t : T) : Option (On T K) :=
  if blocks then x.add S c .read (.recv t) else some ⟨(x.loop.setCb c .read none).spawn t, x.k⟩

/-- lib/async.cora:158-178 `send-handler` -/
def On.sendHandler (S : Sys K) (x : On T K) (c : Nat) (blocks : Bool) (t : T) : Option (On T K) :=
  if blocks then x.add S c .write (.send t)
  else do
    let L := x.loop.setCb c .write none
    let k ← S.mod x.k c ((L.conn c).mode.filter (· ≠ .write))
    some ⟨L.spawn t, k⟩

/-- run a callback; lib/async.cora:209-222 for `accept-op` -/
def On.call (S : Sys K) (x : On T K) (c : Nat) (blocks : Bool) : Cb T → Option (On T K)
  | .recv t => x.recvHandler S c blocks t
  | .accept t => some ⟨(x.loop.setCb c .read none).spawn t, x.k⟩
  | .send t => x.sendHandler S c blocks t

/-- lib/async.cora:237-263 `scheduler`, for one event -/
def On.event (S : Sys K) (x : On T K) (c : Nat) (m : Mode) (blocks : Bool) : Option (On T K) :=
  if S.reports x.k c m then
    match (match m with | .read => (x.loop.conn c).rcb | .write => (x.loop.conn c).wcb) with
    | none => some x
    | some cb => x.call S c blocks cb
  else some x

/-- one operation -/
def stepOn (S : Sys K) (x : On T K) : LoopOp T → Option (On T K)
  | .recv c t => x.add S c .read (.recv t)
  | .accept c t => x.add S c .read (.accept t)
  | .send c t => x.add S c .write (.send t)
  | .ready c m b => x.event S c m b
  | .close c => x.close S c

/-- a history -/
def runOn (S : Sys K) (x : On T K) : List (LoopOp T) → Option (On T K)
  | [] => some x
  | o :: r => do runOn S (← stepOn S x o) r

end Cora.Async
