import Verif.Model.Net
import Verif.Model.Reader
import Verif.Spec.Sockets
/-
Model of /repo/lib/net.c:39-127, 211-237: opening and closing connections. What the operating system answers is not known: it is given by a
`System`, which may be another one for every call. It does not give a descriptor that is open. What is printed is left out, and so is
that the list of addresses is not freed if no address answers (112-116).
-/
open Spec.Sockets
namespace Cora.Sockets
variable {Addr : Type}

/-- the answers of the system during one call: the addresses of a host and a port, the descriptors for sockets, whether an address accepts
connections, whether a port can be bound and listened at, the descriptor of an incoming connection -/
structure System (Addr : Type) where
  resolve : Bytes → Bytes → Option (List Addr)
  socket : Nat → Table Addr → Option Nat
  connect : Addr → Bool
  bind : Nat → Bool
  listen : Nat → Bool
  accept : Nat → Table Addr → Option Nat

/-- lib/net.c:39-43 `setNonBlock` -/
def setNonBlock (t : Table Addr) (fd : Nat) : Table Addr := t.put fd ((t fd).map fun d => { d with blocking := false })

/-- `atoi` of the C library: space, a sign, digits -/
def atoi (b : Bytes) : Int :=
  match b.dropWhile Reader.isspace with
  | 45 :: r => Reader.atoi true (r.takeWhile Reader.isdigit)
  | 43 :: r => Reader.atoi false (r.takeWhile Reader.isdigit)
  | r => Reader.atoi false (r.takeWhile Reader.isdigit)

/-- `htons` takes an unsigned number of 16 bits -/
def toPort (n : Int) : Nat := (n % 65536).toNat

/-- lib/net.c:45-82 `netListen`: the host is not used; `none` is the empty list -/
def netListen (S : System Addr) (arg : Bytes) (t : Table Addr) : Option Nat × Table Addr :=
  match Net.splitHostAndPort arg with
  | none => (none, t)
  | some (_, port) =>
    let p := toPort (atoi (cname port))
    match S.socket 0 t with
    | none => (none, t)
    | some fd =>
      let t := t.put fd (some ⟨.raw, true⟩)
      if S.bind p = false then (none, t)
      else if S.listen p = false then (none, t)
      else (some fd, setNonBlock (t.put fd (some ⟨.listening p, true⟩)) fd)

/-- lib/net.c:107-115: the addresses one after the other; the number of calls of `socket` before -/
def tryAddresses (S : System Addr) : Nat → List Addr → Table Addr → Option Nat × Table Addr
  | _, [], t => (none, t)
  | i, a :: as, t =>
    match S.socket i t with
    | none => tryAddresses S (i + 1) as t
    | some fd =>
      let t := t.put fd (some ⟨.raw, true⟩)
      if S.connect a then (some fd, t.put fd (some ⟨.connected a, true⟩))
      else tryAddresses S (i + 1) as (t.put fd none)

/-- lib/net.c:84-127 `netDial` -/
def netDial (S : System Addr) (arg : Bytes) (t : Table Addr) : Option Nat × Table Addr :=
  match Net.splitHostAndPort arg with
  | none => (none, t)
  | some (host, port) =>
    match S.resolve (cname host) (cname port) with
    | none => (none, t)
    | some as =>
      match tryAddresses S 0 as t with
      | (none, t) => (none, t)
      | (some fd, t) => (some fd, setNonBlock t fd)

/-- lib/net.c:211-230 `netAccept` -/
def netAccept (S : System Addr) (ln : Nat) (t : Table Addr) : Option Nat × Table Addr :=
  match t ln with
  | some ⟨.listening p, _⟩ =>
    match S.accept ln t with
    | none => (none, t)
    | some fd => (some fd, setNonBlock (t.put fd (some ⟨.incoming p, true⟩)) fd)
  | _ => (none, t)

/-- lib/net.c:232-238 `netClose` -/
def netClose (fd : Nat) (t : Table Addr) : Table Addr := t.put fd none

/-- what a program does -/
inductive Op where
  | listen (arg : Bytes)
  | dial (arg : Bytes)
  | accept (ln : Nat)
  | close (fd : Nat)

/-- the event that the program sees -/
def eventOf : Option Nat → Event
  | some fd => .got fd
  | none => .nothing

def perform (S : System Addr) (t : Table Addr) : Op → Event × Table Addr
  | .listen a => (eventOf (netListen S a t).1, (netListen S a t).2)
  | .dial a => (eventOf (netDial S a t).1, (netDial S a t).2)
  | .accept ln => (eventOf (netAccept S ln t).1, (netAccept S ln t).2)
  | .close fd => (.closed fd, netClose fd t)

/-- operations one after the other, each with a system that answers -/
def performs : Table Addr → List (System Addr × Op) → List Event × Table Addr
  | t, [] => ([], t)
  | t, (S, op) :: ops =>
    let r := perform S t op
    let q := performs r.2 ops
    (r.1 :: q.1, q.2)

end Cora.Sockets
