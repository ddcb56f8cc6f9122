/-
Histories of an event loop over connections, numbered, with tasks of type `T`.
-/
namespace Spec

/-- what a task waits for -/
inductive Mode where
  | read
  | write
  deriving DecidableEq

/-- what can happen: a task starts to receive on a connection, to accept on it or to send on it, and cannot go on at
once; the operating system reports that a connection is ready, and the task there still cannot go on (`blocks`) or
is done; a connection is closed -/
inductive LoopOp (T : Type) where
  | recv (c : Nat) (t : T)
  | accept (c : Nat) (t : T)
  | send (c : Nat) (t : T)
  | ready (c : Nat) (m : Mode) (blocks : Bool)
  | close (c : Nat)

/-- connection, mode and task of an operation that waits -/
def LoopOp.waiter {T : Type} : LoopOp T → Option (Nat × Mode × T)
  | .recv c t => some (c, .read, t)
  | .accept c t => some (c, .read, t)
  | .send c t => some (c, .write, t)
  | _ => none

/-- the connections that were waited for and not closed since, the latest first; `ops` is the history, latest last -/
def registered {T : Type} (ops : List (LoopOp T)) : List Nat :=
  ops.foldl (fun l op =>
    match op with
    | .close c => l.erase c
    | .ready _ _ _ => l
    | .recv c _ => if c ∈ l then l else c :: l
    | .accept c _ => if c ∈ l then l else c :: l
    | .send c _ => if c ∈ l then l else c :: l) []

/-! What should happen. -/

/-- the tasks that wait on each connection, in order, with the mode (`true`: it accepts, and so is done when the
connection is ready); the closed connections; the tasks woken, in order -/
structure Waiting (T : Type) where
  tasks : Nat → Mode → List (Bool × T)
  closed : Nat → Bool
  woken : List T

/-- nobody waits -/
def Waiting.none {T : Type} : Waiting T := ⟨fun _ _ => [], fun _ => false, []⟩

/-- a task begins to wait -/
def Waiting.wait {T : Type} (w : Waiting T) (c : Nat) (m : Mode) (x : Bool × T) : Waiting T :=
  { w with tasks := fun d n => if d = c ∧ n = m then w.tasks d n ++ [x] else w.tasks d n }

/-- the first task waiting for this goes on, unless the connection is closed or the task still cannot go on -/
def Waiting.ready {T : Type} (w : Waiting T) (c : Nat) (m : Mode) (blocks : Bool) : Waiting T :=
  match w.tasks c m with
  | [] => w
  | x :: r =>
    if w.closed c = true ∨ (blocks = true ∧ x.1 = false) then w
    else { w with tasks := fun d n => if d = c ∧ n = m then r else w.tasks d n, woken := w.woken ++ [x.2] }

/-- one operation -/
def Waiting.step {T : Type} (w : Waiting T) : LoopOp T → Waiting T
  | .recv c t => w.wait c .read (false, t)
  | .accept c t => w.wait c .read (true, t)
  | .send c t => w.wait c .write (false, t)
  | .ready c m b => w.ready c m b
  | .close c => { w with closed := fun d => if d = c then true else w.closed d }

/-- after a history, latest last -/
def waiting {T : Type} (ops : List (LoopOp T)) : Waiting T := ops.foldl Waiting.step Waiting.none

/-- no task begins to wait for a connection and a mode for which another task waits -/
def OneEach {T : Type} (ops : List (LoopOp T)) : Prop :=
  ∀ a op b c m t, ops = a ++ op :: b → op.waiter = some (c, m, t) → (waiting a).tasks c m = []

/-- no task waits to send on a connection that was ready for writing earlier -/
def FirstSends {T : Type} (ops : List (LoopOp T)) : Prop :=
  ∀ a c t b, ops = a ++ .send c t :: b → LoopOp.ready c .write false ∉ a

end Spec
