/-
When collections begin, seen from outside.
-/
namespace Spec.Pace

/-- what happens: so many bytes are allocated; or the machine asks whether a collection should begin. If it does, `live` bytes are found in use by it
and `during` bytes are allocated until it ends -/
inductive Event where
  | alloc (n : Nat)
  | ask (live during : Nat)

/-- the bytes allocated since the last collection began, or since the start; for each event it is known whether a collection began -/
def since : List (Event × Bool) → Nat
  | [] => 0
  | h => go h 0
where
  go : List (Event × Bool) → Nat → Nat
    | [], n => n
    | (.alloc k, _) :: h, n => go h (n + k)
    | (.ask _ d, true) :: h, _ => go h d
    | (.ask _ _, false) :: h, n => go h n

/-- the bytes allocated in an event -/
def Event.bytes : Event → Nat
  | .alloc n => n
  | .ask _ d => d

/-- in this history no collection finds more than `B` bytes in use, and not more than `A` bytes are allocated while it runs; all that is ever allocated
are less than 2^63 bytes -/
structure Within (B A : Nat) (es : List Event) : Prop where
  live : ∀ l d, Event.ask l d ∈ es → l ≤ B
  during : ∀ l d, Event.ask l d ∈ es → d ≤ A
  total : (es.map Event.bytes).sum < 2 ^ 63

/-- the bytes that were in use when a generation was last collected -/
structure Sizes where
  young : Nat
  middle : Nat
  old : Nat

def Sizes.sum (s : Sizes) : Nat := s.young + s.middle + s.old

/-- after collection number `r`: every twelfth is one of the old generation, every fourth of the middle one, every second of the young one -/
def Sizes.after (s : Sizes) (r live : Nat) : Sizes :=
  if r % 12 = 0 then { s with old := live } else if r % 4 = 0 then { s with middle := live } else if r % 2 = 0 then { s with young := live } else s

end Spec.Pace
