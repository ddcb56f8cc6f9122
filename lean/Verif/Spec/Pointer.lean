import Verif.Spec.Alloc
import Verif.Model.Pointer
/-
Where the memory of the objects is. Used by C102.
-/
namespace Spec.Alloc
open Cora.Alloc Cora.GC

/-- the address of the first byte, and the one behind the last -/
def first (start : Bool → Nat → Nat) (r : Region) : Nat := start r.large r.arena + r.lo
@[inherit_doc first] def last (start : Bool → Nat → Nat) (r : Region) : Nat := start r.large r.arena + r.hi

/-- the arena has been made -/
def Made (s : Heap) (large : Bool) (n : Nat) : Prop := if large then n < s.made else n * 16384 < s.nblocks

/-- what `mmap` promises: 64 MB each, below `2 ^ 48`, and no two share a byte -/
structure Mapped (start : Bool → Nat → Nat) (s : Heap) : Prop where
  below : ∀ l n, Made s l n → start l n + 64 * 1024 * 1024 ≤ 2 ^ 48
  apart : ∀ l n l' n', Made s l n → Made s l' n' → (l, n) ≠ (l', n') →
    start l n + 64 * 1024 * 1024 ≤ start l' n' ∨ start l' n' + 64 * 1024 * 1024 ≤ start l n

/-- an object in use, and its memory: in a block of a size class, at a multiple of it; or some blocks of an arena for
large objects -/
inductive Object (s : Heap) : Region → Prop where
  | small {k off} : k < s.nblocks → (s.blk k).cls ≠ 0 → (s.blk k).cls ∣ off → off + (s.blk k).cls ≤ 4096 →
      inuse s.gv (s.head k off) = true → Object s (smallRegion k off (s.blk k).cls)
  | large {a t} : a ∈ s.large ++ s.parked → Tile a t → inuse s.gv (a.head t) = true →
      Object s (largeRegion a.id t (lslots (a.head t)))

end Spec.Alloc
