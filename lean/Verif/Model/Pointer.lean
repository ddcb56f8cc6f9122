import Verif.Model.Alloc
import Verif.Model.NaNBox
/-
How the collector finds the object that a word points into: src/gc.c:96-99, 311-328, 650-693. Builds on the model of
the allocator in Verif/Model/Alloc.lean.

Simplifications. Where the arenas are in memory is a parameter (`start`); the order in which they are looked through is one too,
since the list is only known to hold all of them. The header is eight bytes long (src/gc.h:29-33).
-/
namespace Cora.Alloc
open Cora.GC (MEM_BLOCK_SIZE)

/-- which blocks an arena has: the small blocks from `n * 16384` on, or the large ones of an arena with `forLargeObjects` -/
inductive Kind where
  | small (n : Nat)
  | large (a : LArena)

/-- src/gc.c:48-63 `heapArena`: `start` is `ptr` -/
structure Arena where
  start : Nat
  idx : Nat
  kind : Kind

/-- the arenas for small objects; all are full but the newest (src/gc.c:243-251) -/
def smallArenas (start : Bool → Nat → Nat) (s : Heap) : List Arena :=
  (List.range ((s.nblocks + (BLOCKS - 1)) / BLOCKS)).map fun n => ⟨start false n, min BLOCKS (s.nblocks - n * BLOCKS), .small n⟩

/-- an arena for large objects -/
def largeArena (start : Bool → Nat → Nat) (a : LArena) : Arena := ⟨start true a.id, a.idx, .large a⟩

/-- the arenas in `gc->heap` and `gc->large`; `start` says where an arena (for large objects?, number) is in memory -/
def arenas (start : Bool → Nat → Nat) (s : Heap) : List Arena :=
  smallArenas start s ++ (s.parked ++ s.large).map (largeArena start)

/-- src/gc.c:96-99 `heapArenaContains` -/
def Arena.contains (h : Arena) (p : Nat) : Bool := decide (h.start ≤ p) && decide (p < h.start + h.idx * MEM_BLOCK_SIZE)

/-- src/gc.c:311-329 `gcContains`; `order`: the lists `gc->heap` and `gc->large` -/
def gcContains (order : List Arena) (p : Nat) : Option Arena := order.find? (·.contains p)

/-- src/gc.h:29-33 `sizeof(scmHead)` -/
def HEAD : Nat := 8

/-- src/gc.c:674-678: `base` is the block where the object begins, of `used` ones -/
def inLarge (gv : Nat) (a : LArena) (start used idx base : Nat) : Option (Option (Nat × Nat)) :=
  if base < used then
    if inuse gv (a.head base) then some (some (start + base * MEM_BLOCK_SIZE, idx)) else some none
  else none

/-- src/gc.c:680-692: the block `k`, the one with number `idx` in its arena; it begins at `base` -/
def inSmall (s : Heap) (k base idx addr : Nat) : Option (Option (Nat × Nat)) :=
  if (s.blk k).cls = 0 then some none
  else
    let pos := (addr - base) / (s.blk k).cls
    if pos * (s.blk k).cls + HEAD ≤ MEM_BLOCK_SIZE then
      if inuse s.gv (s.head k (pos * (s.blk k).cls)) then some (some (base + pos * (s.blk k).cls, idx)) else some none
    else none

/-- src/gc.c:654-693 `checkPointer`. The result is the address of the object's header and the number of the block in its arena. The inner `none`
is NULL; the outer one is the reading of a header that is not in a block in use. -/
def checkPointer (order : List Arena) (s : Heap) (w : Obj) : Option (Option (Nat × Nat)) :=
  if isScmHead w = false then some none
  else
    let addr := (ptrOf w).toNat
    match gcContains order addr with
    | none => some none
    | some h =>
      let idx := (addr - h.start) / MEM_BLOCK_SIZE
      match h.kind with
      | .large a => inLarge s.gv a h.start h.idx idx (a.base idx)
      | .small n => inSmall s (n * BLOCKS + idx) (h.start + idx * MEM_BLOCK_SIZE) idx addr

end Cora.Alloc
