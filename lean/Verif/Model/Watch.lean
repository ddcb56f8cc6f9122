import Verif.Spec.Watch
/-
Model of /repo/lib/epoll.c, /repo/lib/kqueue.c and /repo/lib/net.c:148-153, 247-281: watching descriptors, on either system. What the kernels do follows
their manual pages: `epoll` keeps a mask and a value for each descriptor, `kqueue` a value for each descriptor and filter, and works off a list of
changes up to the first that fails. Closing a descriptor removes it. What is printed is left out.
-/
open Spec.Watch
namespace Cora.Watch
variable {V : Type}

/-- what the kernel answers to a call that waits: it was interrupted, it fails, or there are events, which it considers in some order -/
inductive Answer where
  | interrupted
  | fails
  | events (order : List Nat)

/-! ### epoll -/
namespace Epoll

def EPOLLIN : Nat := 2 ^ 0
def EPOLLOUT : Nat := 2 ^ 2
/-- `EPOLLERR | EPOLLHUP`, which are always waited for -/
def always : Nat := 2 ^ 3 ||| 2 ^ 4

structure Kernel (V : Type) where
  isOpen : Nat → Bool
  entry : Nat → Option (Nat × V)

def Kernel.start : Kernel V := ⟨fun _ => false, fun _ => none⟩

def Kernel.set (k : Kernel V) (fd : Nat) (x : Option (Nat × V)) : Kernel V := { k with entry := fun y => if y = fd then x else k.entry y }

/-- `EPOLL_CTL_ADD`: an error if the descriptor is there or is not open -/
def ctlAdd (k : Kernel V) (fd events : Nat) (v : V) : Kernel V := if k.isOpen fd && (k.entry fd).isNone then k.set fd (some (events, v)) else k
/-- `EPOLL_CTL_MOD`: an error if it is not there -/
def ctlMod (k : Kernel V) (fd events : Nat) (v : V) : Kernel V := if (k.entry fd).isSome then k.set fd (some (events, v)) else k
/-- `EPOLL_CTL_DEL`: an error if it is not there -/
def ctlDel (k : Kernel V) (fd : Nat) : Kernel V := if (k.entry fd).isSome then k.set fd none else k

/-- lib/epoll.c:8-18 `pollReadAdd` -/
def pollReadAdd (k : Kernel V) (fd : Nat) (v : V) : Kernel V := ctlAdd k fd EPOLLIN v
/-- lib/epoll.c:21-30 `pollWriteAdd` -/
def pollWriteAdd (k : Kernel V) (fd : Nat) (v : V) : Kernel V := ctlAdd k fd EPOLLOUT v
/-- lib/epoll.c:34-42: the loop; `none` is a value that is neither symbol -/
def newMode : List (Option Mode) → Nat → Nat
  | [], n => n
  | some .read :: ms, n => newMode ms (n ||| EPOLLIN)
  | some .write :: ms, n => newMode ms (n ||| EPOLLOUT)
  | none :: ms, n => newMode ms n
/-- lib/epoll.c:32-53 `pollCtlMod` -/
def pollCtlMod (k : Kernel V) (fd : Nat) (ms : List (Option Mode)) (v : V) : Kernel V := ctlMod k fd (newMode ms 0) v
/-- lib/epoll.c:55-61 `pollCtlDel` -/
def pollCtlDel (k : Kernel V) (fd : Nat) : Kernel V := ctlDel k fd

/-- the event of a descriptor, if there is one: what is waited for and is the case -/
def eventOf (k : Kernel V) (ready : Nat → Nat) (fd : Nat) : Option (Nat × V) :=
  match k.entry fd with
  | none => none
  | some (events, v) => if (events ||| always) &&& ready fd = 0 then none else some ((events ||| always) &&& ready fd, v)

/-- lib/epoll.c:80-90: the answer is made from the events; the last comes first -/
def answer : List (Nat × V) → List (V × Mode) → List (V × Mode)
  | [], ret => ret
  | (e, v) :: es, ret =>
    let ret := if e &&& EPOLLIN = EPOLLIN then (v, .read) :: ret else ret
    let ret := if e &&& EPOLLOUT = EPOLLOUT then (v, .write) :: ret else ret
    answer es ret

/-- lib/epoll.c:62-92 `poll`, with what the kernel answers; `none` if it has not answered yet -/
def poll (k : Kernel V) (ready : Nat → Nat) : List Answer → Option (List (V × Mode))
  | [] => none
  | .interrupted :: as => poll k ready as
  | .fails :: _ => some []
  | .events order :: _ => some (answer ((order.filterMap (eventOf k ready)).take 64) [])

/-- lib/net.c:247-281 `pollAdd`, `pollMod`, `pollDel` -/
def step (k : Kernel V) : Op V → Kernel V
  | .opened fd => { k with isOpen := fun y => if y = fd then true else k.isOpen y }
  | .closed fd => { k.set fd none with isOpen := fun y => if y = fd then false else k.isOpen y }
  | .add fd .read v => pollReadAdd k fd v
  | .add fd .write v => pollWriteAdd k fd v
  | .mod fd ms v => pollCtlMod k fd ms v
  | .del fd => pollCtlDel k fd

def run (k : Kernel V) (ops : List (Op V)) : Kernel V := ops.foldl step k

end Epoll

/-! ### kqueue -/
namespace Kqueue

structure Kernel (V : Type) where
  isOpen : Nat → Bool
  entry : Nat → Mode → Option V

def Kernel.start : Kernel V := ⟨fun _ => false, fun _ _ => none⟩

def Kernel.set (k : Kernel V) (fd : Nat) (m : Mode) (x : Option V) : Kernel V :=
  { k with entry := fun y n => if y = fd ∧ n = m then x else k.entry y n }

/-- a change: `EV_ADD | EV_ENABLE` or `EV_DELETE`, for a descriptor and a filter -/
inductive Change (V : Type) where
  | add (fd : Nat) (m : Mode) (v : V)
  | delete (fd : Nat) (m : Mode)

/-- `kevent` with changes and no room for events: they are made one after the other; the first that fails ends it -/
def kevent (k : Kernel V) : List (Change V) → Kernel V
  | [] => k
  | .add fd m v :: cs => if k.isOpen fd then kevent (k.set fd m (some v)) cs else k
  | .delete fd m :: cs => if (k.entry fd m).isSome then kevent (k.set fd m none) cs else k

/-- lib/kqueue.c:20-27 `pollReadAdd` -/
def pollReadAdd (k : Kernel V) (fd : Nat) (v : V) : Kernel V := kevent k [.add fd .read v]
/-- lib/kqueue.c:29-36 `pollWriteAdd` -/
def pollWriteAdd (k : Kernel V) (fd : Nat) (v : V) : Kernel V := kevent k [.add fd .write v]
/-- lib/kqueue.c:43-51: the loop fills an array of two; `none` if it writes behind it -/
def changes (fd : Nat) (v : V) : List (Option Mode) → List (Change V) → Option (List (Change V))
  | [], ev => some ev
  | some m :: ms, ev => if ev.length < 2 then changes fd v ms (ev ++ [.add fd m v]) else none
  | none :: ms, ev => changes fd v ms ev
/-- lib/kqueue.c:39-55 `pollCtlMod` -/
def pollCtlMod (k : Kernel V) (fd : Nat) (ms : List (Option Mode)) (v : V) : Option (Kernel V) := (changes fd v ms []).map (kevent k)
/-- lib/kqueue.c:57-65 `pollCtlDel` -/
def pollCtlDel (k : Kernel V) (fd : Nat) : Kernel V := kevent k [.delete fd .read, .delete fd .write]

/-- lib/kqueue.c:72-78: a time in milliseconds as seconds and nanoseconds; negative means for ever -/
def timespec (timeout : Int) : Option (Int × Int) := if timeout ≥ 0 then some (timeout.tdiv 1000, timeout.tmod 1000 * 1000000) else none

/-- lib/kqueue.c:91-101: the answer is made from the events; the last comes first -/
def answer : List (Mode × V) → List (V × Mode) → List (V × Mode)
  | [], ret => ret
  | (f, v) :: es, ret =>
    let ret := if f = .read then (v, .read) :: ret else ret
    let ret := if f = .write then (v, .write) :: ret else ret
    answer es ret

/-- the events of a descriptor -/
def eventsOf (k : Kernel V) (ready : Nat → Mode → Bool) (fd : Nat) : List (Mode × V) :=
  [Mode.read, Mode.write].filterMap fun m => if ready fd m then (k.entry fd m).map fun v => (m, v) else none

/-- lib/kqueue.c:67-102 `poll` -/
def poll (k : Kernel V) (ready : Nat → Mode → Bool) : List Answer → Option (List (V × Mode))
  | [] => none
  | .interrupted :: as => poll k ready as
  | .fails :: _ => some []
  | .events order :: _ => some (answer ((order.flatMap (eventsOf k ready)).take 64) [])

/-- lib/net.c:247-281 `pollAdd`, `pollMod`, `pollDel` -/
def step (k : Kernel V) : Op V → Option (Kernel V)
  | .opened fd => some { k with isOpen := fun y => if y = fd then true else k.isOpen y }
  | .closed fd => some { (k.set fd .read none).set fd .write none with isOpen := fun y => if y = fd then false else k.isOpen y }
  | .add fd .read v => some (pollReadAdd k fd v)
  | .add fd .write v => some (pollWriteAdd k fd v)
  | .mod fd ms v => pollCtlMod k fd ms v
  | .del fd => some (pollCtlDel k fd)

def run (k : Kernel V) : List (Op V) → Option (Kernel V)
  | [] => some k
  | op :: ops => do run (← step k op) ops

end Kqueue
end Cora.Watch
