import Verif.Model.Parallel
import Verif.Spec.Registry
/-
The registry of mailboxes with several procs (threads of the same process, /repo/lib/parallel/internal.c): `registry` is a static variable,
shared by all of them, and neither `mailboxPublish` nor `mailboxResolve` takes a lock. Each read and each write of a field of a slot is a step of
its own here; the steps of different threads interleave in any order. The memory is taken to be sequentially consistent (C gives no such promise
for a data race). `Model/Parallel` has the same two functions as one step each.
-/
namespace Cora.Registry
open Spec.Registry Cora.Parallel

/-- lib/parallel/internal.c:259-262 `struct mailboxRegistrySlot`; `none` is NULL -/
structure Slot (μ : Type) where
  m : Option μ
  name : Option (List UInt8)
deriving DecidableEq

/-- where a thread is; `idx`, `try_` are its local variables -/
inductive At (μ : Type) where
  | outside
  /-- internal.c:293: the next thing is to read `slot->m` -/
  | seeking (name : List UInt8) (m : μ) (idx : Nat)
  /-- internal.c:303: to write `slot->m` -/
  | storing (name : List UInt8) (m : μ) (idx : Nat)
  /-- internal.c:304: to write `slot->name` -/
  | naming (name : List UInt8) (m : μ) (idx : Nat)
  /-- internal.c:316: to read `slot->m` -/
  | looking (name : List UInt8) (idx try_ : Nat)
  /-- internal.c:316: to read `slot->name` -/
  | comparing (name : List UInt8) (idx try_ : Nat)
  /-- internal.c:321: to read `slot->m` again -/
  | again (name : List UInt8) (idx try_ : Nat)
  /-- internal.c:326: to read `slot->name` again -/
  | checking (name : List UInt8) (idx try_ : Nat)
  /-- internal.c:327: to read `slot->m` for the last time -/
  | giving (name : List UInt8) (idx try_ : Nat)

/-- inside of `mailboxPublish` -/
def At.publishes {μ : Type} : At μ → Bool
  | .seeking .. | .storing .. | .naming .. => true
  | _ => false

/-- inside of `mailboxResolve` -/
def At.resolves {μ : Type} : At μ → Bool
  | .looking .. | .comparing .. | .again .. | .checking .. | .giving .. => true
  | _ => false

/-- the process; `log` is what has happened, last event first -/
structure Proc (μ : Type) where
  slots : Nat → Slot μ
  threads : Nat → At μ
  log : List (Event μ)
  alive : Bool

inductive Act (μ : Type) where
  | publish (t : Nat) (name : List UInt8) (m : μ)
  | resolve (t : Nat) (name : List UInt8)
  /-- thread `t` does its next read or write -/
  | go (t : Nat)

variable {μ : Type}

def Proc.move (s : Proc μ) (t : Nat) (l : At μ) : Proc μ := { s with threads := fun u => if u = t then l else s.threads u }
def Proc.note (s : Proc μ) (e : Event μ) : Proc μ := { s with log := e :: s.log }
def Proc.crash (s : Proc μ) (t : Nat) (why : Cause) : Proc μ := { s.note (.crashed t why) with alive := false }
def Proc.write (s : Proc μ) (idx : Nat) (x : Slot μ) : Proc μ := { s with slots := fun i => if i = idx then x else s.slots i }

/-- lib/parallel/internal.c:285-329 `mailboxPublish`, `mailboxResolve`: the next step of thread `t` -/
def Proc.go (s : Proc μ) (t : Nat) : Option (Proc μ) :=
  match s.threads t with
  | .outside => none
  | .seeking name m idx => -- 292-302
    let start := ((fnv1aHash name % 256).toNat + 256 - 1) % 256
    if (s.slots idx).m.isSome ∧ idx ≠ start then some (s.move t (.seeking name m ((idx + 1) % 256)))
    else if idx = start then some (s.crash t .full)
    else some (s.move t (.storing name m idx))
  | .storing name m idx => some ((s.write idx { s.slots idx with m := some m }).move t (.naming name m idx)) -- 303
  | .naming name m idx => -- 304-305
    some (((s.write idx { s.slots idx with name := some name }).move t .outside).note (.published t name m))
  | .looking name idx try_ =>
    match (s.slots idx).m with
    | none => some (s.move t (.again name idx try_))
    | some _ => some (s.move t (.comparing name idx try_))
  | .comparing name idx try_ => -- `toStr(slot->name)` reads through the pointer
    match (s.slots idx).name with
    | none => some (s.crash t .null)
    | some n =>
      if n ≠ name ∧ try_ < 256 then some (s.move t (.looking name ((idx + 1) % 256) (try_ + 1)))
      else some (s.move t (.again name idx try_))
  | .again name idx try_ => -- 321-325
    if (s.slots idx).m.isNone ∨ try_ = 256 then some ((s.move t .outside).note (.resolved t name none))
    else some (s.move t (.checking name idx try_))
  | .checking name idx try_ =>
    match (s.slots idx).name with
    | none => some (s.crash t .null)
    | some n => if n = name then some (s.move t (.giving name idx try_)) else some (s.crash t .assertion)
  | .giving name idx _ => -- `slot->m` never becomes NULL again
    some ((s.move t .outside).note (.resolved t name (s.slots idx).m))

/-- `none`: not a step of this thread, or the process has ended -/
def Proc.act (s : Proc μ) (a : Act μ) : Option (Proc μ) :=
  if s.alive then
    match a with
    | .publish t name m => -- 287-292
      match s.threads t with
      | .outside => some ((s.move t (.seeking name m (fnv1aHash name % 256).toNat)).note (.publishing t name m))
      | _ => none
    | .resolve t name => -- 310-315
      match s.threads t with
      | .outside => some ((s.move t (.looking name (fnv1aHash name % 256).toNat 0)).note (.resolving t name))
      | _ => none
    | .go t => s.go t
  else none

def Proc.run (s : Proc μ) : List (Act μ) → Option (Proc μ)
  | [] => some s
  | a :: r => (s.act a).bind fun s => s.run r

/-- lib/parallel/internal.c:278 `registry`: static storage, so all fields are NULL -/
def Proc.start : Proc μ := ⟨fun _ => ⟨none, none⟩, fun _ => .outside, [], true⟩

end Cora.Registry
