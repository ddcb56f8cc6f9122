import Verif.Spec.Mailbox
/-
Model of the mailboxes of /repo/lib/parallel.cora and /repo/lib/parallel/internal.c. A step is what a thread does while it holds
the lock of the mailbox. (The C file is written for an older interface of the runtime; it is modelled as it is written.)
-/
open Spec.Mailbox
namespace Cora.Parallel

/-- a mailbox: the messages queued, the receivers in line, and, of the receivers, those that looked and are about to get in
line, and what receivers got so far (latest first) -/
structure St (α : Type) where
  data : List α
  blocked : List Nat
  about : List Nat
  got : List (Nat × α)

/-- lib/parallel/internal.c:229-242 `mailboxSend`, with 205-218 `wakeupBlocked`: the value is written into the connection for
writing, and one byte count into the pipe; the receiver wakes up with what is in the extra field of its connection for reading
(lib/parallel.cora:63-71), `extra` here, which nothing sets. The queues are singly linked lists with a length (internal.c:78-130,
171-203). -/
def send {α : Type} (extra : α) (v : α) (s : St α) : St α :=
  match s.blocked with
  | r :: rs => { s with blocked := rs, got := (r, extra) :: s.got }
  | [] => { s with data := s.data ++ [v] }

/-- lib/parallel/internal.c:244-257 `mailboxRecvTry`, as used by `perform` (lib/cml.cora:156-168): the answer `false` means that
there is no message -/
def look {α : Type} [DecidableEq α] (fls : α) (r : Nat) (s : St α) : St α :=
  match s.data with
  | v :: d => if v = fls then { s with data := d, about := r :: s.about } else { s with data := d, got := (r, v) :: s.got }
  | [] => { s with about := r :: s.about }

/-- lib/parallel.cora:48-74: the second look, `(> 0 (mailbox-queue-len mb))`, and getting in line. The message that the second
look takes is returned by the block function, whose value nobody uses. -/
def wait {α : Type} (r : Nat) (s : St α) : St α :=
  if r ∈ s.about then
    let s := { s with about := s.about.erase r }
    if (0 : Int) > s.data.length then { s with data := s.data.drop 1 } else { s with blocked := s.blocked ++ [r] }
  else s

def step {α : Type} [DecidableEq α] (fls extra : α) (s : St α) : Act α → St α
  | .send v => send extra v s
  | .look r => look fls r s
  | .wait r => wait r s

/-- a schedule: the actions in the order in which the threads got the lock -/
def run {α : Type} [DecidableEq α] (fls extra : α) (acts : List (Act α)) : St α :=
  acts.foldl (step fls extra) ⟨[], [], [], []⟩

/-! ### names -/

/-- lib/parallel/internal.c:270-276 `fnv1aHash`: the name up to the first NUL byte; `unsigned long` has 64 bits -/
def fnv1aHash (name : List UInt8) : UInt64 :=
  (name.takeWhile (· ≠ 0)).foldl (fun hash c => (hash ^^^ c.toUInt64) * 16777619) 2166136261

/-- lib/parallel/internal.c:259-268: the slots; a slot is empty or holds a name and a mailbox -/
abbrev Slots (μ : Type) := Nat → Option (List UInt8 × μ)

/-- lib/parallel/internal.c:293-296 the loop of `mailboxPublish`. It makes at most 255 turns (`Nat` argument). -/
def findFree {μ : Type} (s : Slots μ) (start : Nat) : Nat → Nat → Nat
  | 0, idx => idx
  | n + 1, idx => if (s idx).isSome ∧ idx ≠ start then findFree s start n ((idx + 1) % 256) else idx

/-- lib/parallel/internal.c:285-306 `mailboxPublish`. `none`: the assertion "hash full". -/
def publish {μ : Type} (name : List UInt8) (m : μ) (s : Slots μ) : Option (Slots μ) :=
  let idx := (fnv1aHash name % 256).toNat
  let start := (idx + 256 - 1) % 256
  let idx := findFree s start 256 idx
  if idx = start then none else some fun i => if i = idx then some (name, m) else s i

/-- lib/parallel/internal.c:315-320 the loop of `mailboxResolve`: the slot and the number of tries -/
def findName {μ : Type} (s : Slots μ) (name : List UInt8) : Nat → Nat → Nat → Nat × Nat
  | 0, idx, try_ => (idx, try_)
  | n + 1, idx, try_ =>
    if (s idx).isSome ∧ (s idx).map (·.1) ≠ some name ∧ try_ < 256 then findName s name n ((idx + 1) % 256) (try_ + 1)
    else (idx, try_)

/-- lib/parallel/internal.c:308-329 `mailboxResolve`; inside `none` is the answer `()`, outside `none` a failed assertion -/
def resolve {μ : Type} (name : List UInt8) (s : Slots μ) : Option (Option μ) :=
  let (idx, try_) := findName s name 257 (fnv1aHash name % 256).toNat 0
  match s idx with
  | none => some none
  | some (n, m) => if try_ = 256 then some none else if n = name then some (some m) else none

/-- publications, first one first -/
def publishAll {μ : Type} : List (List UInt8 × μ) → Slots μ → Option (Slots μ)
  | [], s => some s
  | (name, m) :: r, s => do publishAll r (← publish name m s)

end Cora.Parallel
