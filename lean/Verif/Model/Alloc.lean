import Verif.Model.GC
/-
The allocator of /repo/src/gc.c at the level of addresses: 64 MB arenas, 4 KB blocks, size classes, the free list, blocks
used by the gray queue, and arenas for large objects with splitting and merging.

Simplifications. An address is an arena and an offset in it; that different `mmap`s do not overlap is assumed. Small
arenas are filled one after the other (a new one is made when the newest is full, src/gc.c:243-251), so a block
is a number `k`: index `k % 16384` of arena `k / 16384`. Memory is modelled where the allocator reads it: the header at
each place where an object can begin. The statistics are left out. The objects' `type` is set right after the
allocation (src/types.c:30-37); the two are one step here. Marking, the sweeping of small objects and the program are
the relation `Env` of Verif/Spec/Alloc.lean.
-/
namespace Cora.Alloc
open Cora.GC (upd vcmp sizeClass getSlotBySize MEM_BLOCK_SIZE)

/-- src/gc.c:21 `BLOCKS_PER_HEAP` -/
def BLOCKS : Nat := 16384

/-- src/gc.h:29-33 `scmHead`, with the field `slots` of src/gc.c:106-110 `scmFreeNode`, which lies behind it. `used`:
the type is not `scmHeadUnused`. -/
structure Head where
  used : Bool
  size : Nat
  ver : Nat
  slots : Nat

/-- zeroed memory -/
def Head.zero : Head := ⟨false, 0, 0, 0⟩

/-- src/gc.c:334-347 `inuse`, as a truth value -/
def inuse (gv : Nat) (h : Head) : Bool := h.used && decide (vcmp gv h.ver ≤ 0)

/-- src/gc.c:403, 438, 508: the number of blocks for a size -/
def blocksOf (size : Nat) : Nat := (size + MEM_BLOCK_SIZE - 1) / MEM_BLOCK_SIZE

/-! ### arenas of large objects -/

/-- src/gc.c:48-63 `heapArena` with `forLargeObjects`. `head i`: the header at the start of block `i`. `base i`: the field
`base` of block `i`, as number of the block whose start it points to. -/
structure LArena where
  id : Nat
  idx : Nat
  curr : Nat
  head : Nat → Head
  base : Nat → Nat

/-- src/gc.c:398-404 `getLargeObjSlots` -/
def lslots (h : Head) : Nat := if h.used then blocksOf h.size else h.slots

/-- src/gc.c:406-413 `updateLargeObjectMeta` -/
def LArena.meta (a : LArena) (start slots h : Nat) : LArena :=
  { a with base := fun i => if start ≤ i ∧ i < start + slots then h else a.base i }

/-- `type = scmHeadUnused; slots = n` -/
def LArena.setFree (a : LArena) (i n : Nat) : LArena :=
  { a with head := upd a.head i { a.head i with used := false, slots := n } }

/-- the asserted condition of src/gc.c:465-468 and 480-484 -/
def LArena.allBase (a : LArena) (start slots h : Nat) : Bool := (List.range slots).all fun i => a.base (start + i) == h

/-- src/gc.c:446-474: the loop that makes the dead object at `curr` larger; `s1` is `slots1`. The first argument bounds the number of rounds.
`none`: an assertion fails, or the bound is too small. -/
def growLoop (gv slots : Nat) : Nat → LArena → Nat → Option (LArena × Nat)
  | 0, _, _ => none
  | n + 1, a, s1 =>
    if s1 < slots then
      if a.curr + s1 = a.idx then
        some ((({ a with idx := a.curr + slots }).setFree a.curr slots).meta (a.curr + s1) (slots - s1) a.curr, slots)
      else if inuse gv (a.head (a.curr + s1)) then some (a, s1)
      else
        let s2 := lslots (a.head (a.curr + s1))
        if s2 > 0 ∧ a.allBase (a.curr + s1) s2 (a.curr + s1) = true then
          growLoop gv slots n ((a.setFree a.curr (s1 + s2)).meta (a.curr + s1) s2 a.curr) (s1 + s2)
        else none
    else some (a, s1)

/-- src/gc.c:485-494: what is left over becomes a free object -/
def LArena.split (a : LArena) (slots s1 : Nat) : LArena :=
  if s1 > slots then (a.setFree (a.curr + slots) (s1 - slots)).meta (a.curr + slots) (s1 - slots) (a.curr + slots) else a

/-- src/gc.c:415-496 `heapArenaAllocLarge`; the inner `none` is the returned NULL, the outer one a failed assertion or a
bound that is too small -/
def allocIn (gv slots : Nat) : Nat → LArena → Option (LArena × Option Nat)
  | 0, _ => none
  | n + 1, a =>
    if a.curr + slots ≤ BLOCKS then
      if a.curr = a.idx then
        if a.curr + slots ≥ BLOCKS then some (a, none)
        else
          let b := (a.setFree a.curr slots).meta a.curr slots a.curr
          some ({ b with curr := a.curr + slots, idx := a.idx + slots }, some a.curr)
      else if inuse gv (a.head a.curr) then
        allocIn gv slots n { a with curr := a.curr + blocksOf (a.head a.curr).size }
      else if lslots (a.head a.curr) > 0 then
        match growLoop gv slots (slots + 1) a (lslots (a.head a.curr)) with
        | none => none
        | some (b, s1) =>
          if s1 < slots then allocIn gv slots n { b with curr := b.curr + s1 }
          else if b.allBase b.curr slots b.curr then
            some ({ b.split slots s1 with curr := b.curr + slots }, some b.curr)
          else none
      else none
    else some (a, none)

/-- the number of rounds that `allocIn` is given: enough, see `allocIn_spec` -/
def ROUNDS : Nat := BLOCKS + 1

/-- src/gc.c:65-77, 505-509: a new arena -/
def LArena.new (id : Nat) : LArena := ⟨id, 0, 0, fun _ => .zero, fun _ => 0⟩

/-- src/gc.c:1002-1027: sweeping an arena from block `j` on -/
def sweepFrom (gv : Nat) : Nat → LArena → Nat → Option LArena
  | 0, _, _ => none
  | n + 1, a, j =>
    if j < a.idx then
      if lslots (a.head j) > 0 then
        if (a.head j).used = true ∧ (a.head j).ver % 64 = (gv + 62) % 64 then
          sweepFrom gv n ((a.setFree j (lslots (a.head j))).meta j (lslots (a.head j)) j) (j + lslots (a.head j))
        else sweepFrom gv n a (j + lslots (a.head j))
      else none
    else some a

/-! ### the whole heap -/

/-- src/gc.c:24-44 `Block`: `cls` is `sizeClass` -/
structure Blk where
  cls : Nat
  curr : Nat
  touch : Bool

/-- src/gc.c:201-234 `GC`. `nblocks`: blocks ever made. `lists`: `sizeClass[..]`. `gray`: the blocks of the gray queue.
`head k off`: the header at `off` in block `k`. `large`: the arenas in `gc->large`; `parked`: arenas for large objects
that are in `gc->heap`. `busy`: the state is not `gcStateNone`. -/
structure Heap where
  nblocks : Nat
  blk : Nat → Blk
  lists : Nat → List Nat
  free : List Nat
  gray : List Nat
  head : Nat → Nat → Head
  large : List LArena
  parked : List LArena
  made : Nat
  gv : Nat
  busy : Bool

/-- src/gc.c:275-309 `gcInit` -/
def Heap.init : Heap :=
  { nblocks := 0, blk := fun _ => ⟨0, 0, false⟩, lists := fun _ => [], free := [], gray := [], head := fun _ _ => .zero,
    large := [], parked := [], made := 0, gv := 2, busy := false }

/-- src/gc.c:388-396 `allocDone` -/
def newVer (s : Heap) : Nat := if s.busy then (s.gv + 2) % 64 else s.gv % 64

/-- src/gc.c:357-368: a block that is in no list: from the free list, or a new one -/
def freshBlock (s : Heap) : Option (Heap × Nat) :=
  match s.free with
  | b :: rest => if (s.blk b).cls = 0 ∧ (s.blk b).curr = 0 ∧ (s.blk b).touch = false then some ({ s with free := rest }, b) else none
  | [] => some ({ s with nblocks := s.nblocks + 1, blk := upd s.blk s.nblocks ⟨0, 0, false⟩ }, s.nblocks)

/-- src/gc.c:349-375 `getBlock` for a size class -/
def getBlock (s : Heap) (slot : Nat) : Option (Heap × Nat) :=
  match s.lists slot with
  | b :: _ => some (s, b)
  | [] =>
    match freshBlock s, sizeClass[slot]? with
    | some (s, b), some c =>
      some ({ s with blk := upd s.blk b { s.blk b with cls := c }, lists := upd s.lists slot [b] }, b)
    | _, _ => none

/-- src/gc.c:538-547: what `blockAlloc` does with `touch` -/
def touchOf (s : Heap) (h : Head) (t : Bool) : Bool :=
  if inuse s.gv h then t || decide (vcmp s.gv h.ver < 0) else t || s.busy

/-- src/gc.c:531-550 `blockAlloc`: the offset of the object, if there is one -/
def blockAlloc : Nat → Heap → Nat → Heap × Option Nat
  | 0, s, _ => (s, none)
  | n + 1, s, b =>
    if (s.blk b).curr + (s.blk b).cls ≤ MEM_BLOCK_SIZE then
      let p := (s.blk b).curr
      let s' := { s with blk := upd s.blk b ⟨(s.blk b).cls, p + (s.blk b).cls, touchOf s (s.head b p) (s.blk b).touch⟩ }
      if inuse s.gv (s.head b p) then blockAlloc n s' b else (s', some p)
    else (s, none)

/-- src/gc.c:574-577: a full block leaves its list -/
def popBlock (s : Heap) (slot b : Nat) : Heap :=
  { s with lists := upd s.lists slot (s.lists slot).tail, blk := upd s.blk b { s.blk b with curr := 0 } }

/-- src/gc.c:566-584: the loop of `gcAlloc`: block and offset -/
def allocLoop (slot : Nat) : Nat → Heap → Option (Heap × Nat × Nat)
  | 0, _ => none
  | n + 1, s =>
    match getBlock s slot with
    | none => none
    | some (s, b) =>
      match blockAlloc (MEM_BLOCK_SIZE + 1) s b with
      | (s, some p) => some (s, b, p)
      | (s, none) => allocLoop slot n (popBlock s slot b)

/-- src/gc.c:498-529: the loop of `gcAllocLargeObject`: the arena (now first in the list) and the block in it -/
def largeLoop (slots : Nat) : Nat → Heap → Option (Heap × LArena × Nat)
  | 0, _ => none
  | n + 1, s =>
    match s.large with
    | [] => largeLoop slots n { s with large := [.new s.made], made := s.made + 1 }
    | a :: rest =>
      match allocIn s.gv slots ROUNDS a with
      | none => none
      | some (a, some p) => some ({ s with large := a :: rest }, a, p)
      | some (a, none) => largeLoop slots n { s with large := rest, parked := a :: s.parked }

/-- a piece of memory: in a small or large arena, by number; from byte `lo` up to `hi` -/
structure Region where
  large : Bool
  arena : Nat
  lo : Nat
  hi : Nat

/-- the memory of `n` bytes from offset `off` of block `k` -/
def smallRegion (k off n : Nat) : Region :=
  ⟨false, k / BLOCKS, (k % BLOCKS) * MEM_BLOCK_SIZE + off, (k % BLOCKS) * MEM_BLOCK_SIZE + off + n⟩

/-- the memory of `n` blocks from block `t` of the arena `id` -/
def largeRegion (id t n : Nat) : Region := ⟨true, id, t * MEM_BLOCK_SIZE, (t + n) * MEM_BLOCK_SIZE⟩

/-- src/gc.c:552-588 `gcAlloc`, without the step of the collector that it may begin with; with the `type` set. The result is the memory
for the object. `fuel` bounds the number of rounds. -/
def alloc (fuel : Nat) (s : Heap) (size : Nat) : Option (Heap × Region) :=
  if size ≥ MEM_BLOCK_SIZE then
    if size < BLOCKS * MEM_BLOCK_SIZE then
      match largeLoop (blocksOf size) fuel s with
      | some (s, a, p) =>
        let a := { a with head := upd a.head p ⟨true, size, newVer s, 0⟩ }
        some ({ s with large := a :: s.large.tail }, largeRegion a.id p (blocksOf size))
      | none => none
    else none
  else
    match getSlotBySize size with
    | some slot =>
      match allocLoop slot.toNat fuel s with
      | some (s, b, p) =>
        some ({ s with head := upd s.head b (upd (s.head b) p ⟨true, size, newVer s, 0⟩) },
          smallRegion b p (s.blk b).cls)
      | none => none
    | none => none

/-- src/gc.c:602-619: a block for the gray queue -/
def grayGet (s : Heap) : Option Heap :=
  match freshBlock s with
  | some (s, b) => some { s with gray := b :: s.gray }
  | none => none

/-- src/gc.c:263-273 `blockReset` of a block of the gray queue (src/gc.c:629, 637) -/
def grayPut (s : Heap) (b : Nat) : Heap :=
  { s with gray := s.gray.erase b, free := b :: s.free, head := upd s.head b fun _ => .zero }

/-- src/gc.c:832-842, 877: the block is kept -/
def kept (s : Heap) (b : Nat) : Bool := (s.blk b).touch || (List.range 19).any fun slot => (s.lists slot).contains b

/-- src/gc.c:827-902, 919-920 `gcFlip`. Blocks that are not touched go to the free list, the others to the lists of their size
classes; all begin from the start again. In which order the lists are is not modelled. -/
def flip (s : Heap) : Heap :=
  let ks := List.range s.nblocks
  let drop := ks.filter fun b => decide ((s.blk b).cls ≠ 0) && !kept s b
  { s with
    lists := fun slot => ks.filter fun b =>
      decide ((s.blk b).cls ≠ 0) && kept s b && decide (getSlotBySize (s.blk b).cls = some (slot : Int))
    blk := fun b => if (s.blk b).cls ≠ 0 then (if kept s b then ⟨(s.blk b).cls, 0, true⟩ else ⟨0, 0, false⟩) else s.blk b
    free := drop ++ s.free
    head := fun b => if b ∈ drop then fun _ => .zero else s.head b
    large := (s.parked ++ s.large).map fun a => { a with curr := 0 }
    parked := []
    gv := s.gv + 2
    busy := false }

end Cora.Alloc
