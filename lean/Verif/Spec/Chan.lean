/-
What a synchronous channel should do with a history of sends and receives.
-/
namespace Spec

/-- one performed operation: by whom (`k`), on which channel, and the function applied to its result -/
inductive ChanEv (K V : Type) where
  | send (k : K) (c : Nat) (v : V) (wrap : V → V)
  | recv (k : K) (c : Nat) (wrap : V → V)

/-- the performer -/
def ChanEv.who {K V : Type} : ChanEv K V → K
  | .send k _ _ _ => k
  | .recv k _ _ => k

/-- the channel -/
def ChanEv.chan {K V : Type} : ChanEv K V → Nat
  | .send _ c _ _ => c
  | .recv _ c _ => c

/-- the sends on channel `c`, in order -/
def sendsOn {K V : Type} (c : Nat) (es : List (ChanEv K V)) : List (K × V × (V → V)) :=
  es.filterMap fun
    | .send k c' v w => if c' = c then some (k, v, w) else none
    | .recv _ _ _ => none

/-- the receives on channel `c`, in order -/
def recvsOn {K V : Type} (c : Nat) (es : List (ChanEv K V)) : List (K × (V → V)) :=
  es.filterMap fun
    | .recv k c' w => if c' = c then some (k, w) else none
    | .send _ _ _ _ => none

/-- first come, first served: the `i`-th send on `c` meets the `i`-th receive on `c`. The sender goes on with `unit`,
the receiver with the value sent. Sends or receives without a partner wait. -/
def rendezvous {K V : Type} (unit : V) (c : Nat) (es : List (ChanEv K V)) : List (K × V) :=
  ((sendsOn c es).zip (recvsOn c es)).flatMap fun p => [(p.1.1, p.1.2.2 unit), (p.2.1, p.2.2 p.1.2.1)]

end Spec
