/-
Watching descriptors: which are watched, for what, with which value, and what may be reported.
-/
namespace Spec.Watch

/-- what one waits for -/
inductive Mode where
  | read
  | write
deriving DecidableEq

/-- what the program does: descriptors are opened and closed; `add` starts to watch one for one thing, `mod` says anew for what it is watched (a list
of modes, and of other things, which mean nothing), `del` ends it -/
inductive Op (V : Type) where
  | opened (fd : Nat)
  | closed (fd : Nat)
  | add (fd : Nat) (m : Mode) (v : V)
  | mod (fd : Nat) (ms : List (Option Mode)) (v : V)
  | del (fd : Nat)

/-- which descriptors are open, and which are watched, with which value and for what -/
structure State (V : Type) where
  isOpen : Nat → Bool
  watched : Nat → Option (V × (Mode → Bool))

variable {V : Type}

def State.set (s : State V) (fd : Nat) (x : Option (V × (Mode → Bool))) : State V := { s with watched := fun y => if y = fd then x else s.watched y }

/-- what each operation means; one that makes no sense means nothing -/
def State.step (s : State V) : Op V → State V
  | .opened fd => { s with isOpen := fun y => if y = fd then true else s.isOpen y }
  | .closed fd => { s.set fd none with isOpen := fun y => if y = fd then false else s.isOpen y }
  | .add fd m v => if s.isOpen fd = true ∧ (s.watched fd).isNone then s.set fd (some (v, fun x => x == m)) else s
  | .mod fd ms v => if (s.watched fd).isSome then s.set fd (some (v, fun x => some x ∈ ms)) else s
  | .del fd => s.set fd none

/-- at the start nothing is open -/
def State.start : State V := ⟨fun _ => false, fun _ => none⟩

/-- after a history -/
def after (s : State V) (ops : List (Op V)) : State V := ops.foldl State.step s

/-- a descriptor is watched for this, and ready for it -/
def State.Due (s : State V) (ready : Nat → Mode → Bool) (fd : Nat) (m : Mode) : Prop := ∃ v f, s.watched fd = some (v, f) ∧ f m = true ∧ ready fd m = true

/-- The report is right: each entry is for a descriptor and a mode that are due, with the value; none is there twice; and all are there, if there are
not more than the limit. -/
def State.Reports (s : State V) (ready : Nat → Mode → Bool) (limit : Nat) (out : List (V × Mode)) : Prop :=
  ∃ l : List (Nat × Mode), l.Nodup ∧
    out.map some = l.map (fun p => (s.watched p.1).map fun x => (x.1, p.2)) ∧
    (∀ p ∈ l, s.Due ready p.1 p.2) ∧
    ((∃ ps : List (Nat × Mode), ps.length ≤ limit ∧ ∀ fd m, s.Due ready fd m → (fd, m) ∈ ps) → ∀ fd m, s.Due ready fd m → (fd, m) ∈ l)

end Spec.Watch
