/-
Descriptors of a process, and which are open after a history.
-/
namespace Spec.Sockets

/-- what a descriptor is: a socket without use, one that listens at a port, one connected to an address, or one that came in at a port -/
inductive Role (Addr : Type) where
  | raw
  | listening (port : Nat)
  | connected (a : Addr)
  | incoming (port : Nat)
deriving DecidableEq

/-- a descriptor; operations on it may block or not -/
structure Desc (Addr : Type) where
  role : Role Addr
  blocking : Bool
deriving DecidableEq

/-- the open descriptors -/
abbrev Table (Addr : Type) := Nat → Option (Desc Addr)

/-- the same but for one descriptor -/
def Table.put {Addr : Type} (t : Table Addr) (fd : Nat) (d : Option (Desc Addr)) : Table Addr := fun x => if x = fd then d else t x

/-- what the program is told: it got a descriptor, it closed one, or nothing came of it -/
inductive Event where
  | got (fd : Nat)
  | closed (fd : Nat)
  | nothing
deriving DecidableEq

/-- whether a descriptor is open after these events, if it was (or was not) before -/
def isOpen (fd : Nat) : Bool → List Event → Bool
  | b, [] => b
  | b, .got x :: es => isOpen fd (if x = fd then true else b) es
  | b, .closed x :: es => isOpen fd (if x = fd then false else b) es
  | b, .nothing :: es => isOpen fd b es

end Spec.Sockets
