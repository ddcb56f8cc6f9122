import Verif.Spec.Pace
/-
Model of /repo/src/gc.c:176-199, 236-241, 270-309, 377-398, 790-805, 898-947 with /repo/src/runtime.c:79-85: when a collection begins.
`size_t` has 64 bits and `int` 32. A double that occurs here is a non-negative number with a known power of two as denominator; the numerator is given.
-/
open Spec.Pace
namespace Cora.Pace

/-- src/gc.c:19 -/
def MEM_BLOCK_SIZE : Nat := 4096

/-- src/gc.c:176-191 `struct GCStats`, without the two counts that are only printed -/
structure Stats where
  allocated : Nat
  nextSize : Nat
  markSize : Nat
  young : Nat
  middle : Nat
  old : Nat
  avg : Nat
  prevTrigger : Nat
  deriving DecidableEq

/-- the fields of `struct GC` that matter here; `idle` is `gcStateNone` -/
structure GC where
  stats : Stats
  version : Nat
  deriving DecidableEq

/-- src/gc.c:275-309 `gcInit` -/
def gcInit : GC := ⟨⟨0, MEM_BLOCK_SIZE, 0, 0, 0, 0, 0, 0⟩, 2⟩

/-- `size_t` -/
def u64 (n : Nat) : Nat := n % 2 ^ 64

/-- src/gc.c:193-199 `gcStatsReset` -/
def reset (s : Stats) : Stats := { s with allocated := 0, markSize := 0 }

/-- src/gc.c:388-396 `allocDone`, the statistics -/
def allocDone (s : Stats) (size : Nat) : Stats := { s with allocated := u64 (s.allocated + size) }

/-- src/gc.c:236-241 `gcInuseSizeInc`, all calls in one round -/
def inuse (s : Stats) (size : Nat) : Stats := { s with markSize := u64 (s.markSize + size) }

/-- src/gc.c:378-385 `gcTriggerCheck`, when no round is running -/
def triggerCheck (s : Stats) : Bool := decide (s.allocated > s.nextSize)

/-- the nearest double, to even if there are two: 53 bits of the numerator are kept. The numbers here are too large for subnormal and too small for
infinite doubles. -/
def nearest (n : Nat) : Nat :=
  let e := Nat.log2 n
  if e ≤ 52 then n
  else
    let s := e - 52
    let q := n / 2 ^ s
    let r := n % 2 ^ s
    (if 2 * r > 2 ^ s ∨ (2 * r = 2 ^ s ∧ q % 2 = 1) then q + 1 else q) * 2 ^ s

/-- the double `0.4` is this over `2^53` -/
def c04 : Nat := 3602879701896397
/-- the double `0.6` is this over `2^53` -/
def c06 : Nat := 5404319552844595

/-- src/gc.c:927-928: a `size_t` becomes an `int` (modulo `2^32`), and a `size_t` again at 935 -/
def intBase (n : Nat) : Nat :=
  let m := n % 2 ^ 32
  if m < 2 ^ 31 then m else 2 ^ 64 - 2 ^ 32 + m

/-- src/gc.c:935-936: `(int)(0.4 * (base + avgAllocated) + 0.6 * prevTrigger)`; undefined if it does not fit -/
def mix (base avg prev : Nat) : Option Nat :=
  let x := nearest (c04 * nearest (u64 (base + avg)))
  let y := nearest (c06 * nearest prev)
  let r := nearest (x + y) / 2 ^ 53
  if r < 2 ^ 31 then some r else none

/-- src/gc.c:938-945: at most half again of the last, which is compared as a double (its numerator over 2), and at least a block -/
def limit (next prev : Nat) : Nat :=
  let cap := nearest (3 * nearest prev)
  let next := if 2 * nearest next > cap then cap / 2 else next
  if next < MEM_BLOCK_SIZE then MEM_BLOCK_SIZE else next

/-- src/gc.c:898-908: the size is kept for the generation that was marked -/
def record (version : Nat) (s : Stats) : Stats :=
  if version % 24 = 0 then { s with old := s.markSize }
  else if version % 8 = 0 then { s with middle := s.markSize }
  else if version % 4 = 0 then { s with young := s.markSize }
  else s

/-- src/gc.c:898-947, the end of `gcFlip` -/
def flip (g : GC) : Option GC := do
  let s := record g.version g.stats
  let base := intBase (u64 (s.young + s.middle + s.old))
  let avg := u64 (s.allocated + 3 * s.avg) / 4
  let n ← mix base avg s.prevTrigger
  let n := limit n s.prevTrigger
  some ⟨{ s with avg := avg, nextSize := n, prevTrigger := n }, g.version + 2⟩

/-- an event, and whether a round begins. src/runtime.c:82-84 with src/gc.c:789-805 `gcMarkRoot`; while the round runs the question is answered with no -/
def step (g : GC) : Event → Option (GC × Bool)
  | .alloc n => some ({ g with stats := allocDone g.stats n }, false)
  | .ask live during =>
    if triggerCheck g.stats then do
      let g ← flip { g with stats := allocDone (inuse (reset g.stats) live) during }
      some (g, true)
    else some (g, false)

/-- all events, with the answers -/
def run (g : GC) : List Event → Option (GC × List (Event × Bool))
  | [] => some (g, [])
  | e :: es => do
    let (g, b) ← step g e
    let (g, h) ← run g es
    some (g, (e, b) :: h)

end Cora.Pace
