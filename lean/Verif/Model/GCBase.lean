/-
Model of the self-contained pieces of the collector, /repo/src/gc.c: size classes, version arithmetic and
the gray queue.
-/
namespace Cora.GC

/-- src/gc.c:19 -/
def MEM_BLOCK_SIZE : Nat := 4096

/-- src/gc.c:114-132 `sizeClass` -/
def sizeClass : List Nat :=
  [0, 16, 24, 32, 40, 48, 56, 64, 96, 128, 192, 256, 384, 512, 768, 1024, 1536, 2048, MEM_BLOCK_SIZE]

/-- src/gc.c:135-136 -/
def smallSizeClassIdx : List Int :=
  [0, 1, 1, 2, 3, 4, 5, 6, 7, 8, 8, 8, 8, 9, 9, 9, 9, 10, 10, 10, 10, 10, 10, 10, 10]

/-- src/gc.c:138-142 -/
def mediumSizeClassIdx : List Int :=
  [-1, -1, 9, 10, 11, 12, 12, 13, 13, 14, 14, 14, 14, 15, 15, 15, 15, 16,
   16, 16, 16, 16, 16, 16, 16, 17, 17, 17, 17, 17, 17, 17, 17, 18, 18, 18,
   18, 18, 18, 18, 18, 18, 18, 18, 18, 18, 18, 18, 18, 18, 18, 18, 18, 18,
   18, 18, 18, 18, 18, 18, 18, 18, 18, 18, 18, 18, 18, 18, 18]

/-- src/gc.c:144-149 `getSlotBySize`; `none` is an out-of-bounds read of the table. -/
def getSlotBySize (size : Nat) : Option Int :=
  if size < 128 then smallSizeClassIdx[(size + 7) / 8]? else mediumSizeClassIdx[(size + 63) / 64]?

/-- src/gc.c:157-159 -/
def HALF_VERSION : Int := 32

/-- src/gc.c:161-174 `versionCmp`; `none` is a failed assertion (arguments are masked to 6 bits at every
call, so they are never negative). -/
def versionCmp (v1 v2 : Int) : Option Int :=
  if v1 < 64 ∧ v2 < 64 then
    let diff := v2 - v1
    if diff = 0 then some 0
    else if diff > -HALF_VERSION ∧ diff < HALF_VERSION then some (if diff > 0 then -1 else 1)
    else some (if diff > 0 then 1 else -1)
  else none

/-- src/gc.c:701 -/
def GEN_INCREMENTS : List Nat := [2, 4, 8, 24]

/-- src/gc.c:712-718: the loop of `nextVersion`, from generation `i` down to 0. -/
def nextVerLoop (ver : Nat) : Nat → Nat
  | 0 => if ver % (GEN_INCREMENTS.getD 0 1) = 0 then ver + GEN_INCREMENTS.getD 0 1 - 1 else ver
  | i + 1 =>
    if ver % (GEN_INCREMENTS.getD (i + 1) 1) = 0 then ver + GEN_INCREMENTS.getD (i + 1) 1 - 1
    else nextVerLoop ver i

/-- src/gc.c:708-723 `nextVersion`: the generation and the 6-bit version that are packed into the result
byte. `none` is the failed assertion. -/
def nextVersion (gen ver : Nat) : Option (Nat × Nat) :=
  if gen < 4 then some ((if gen < 3 then gen + 1 else gen), nextVerLoop ver gen % 64) else none

/-! ### gray queue -/

/-- words (8-byte pointers) per block -/
def CHUNK : Nat := 512

/-- src/gc.c:222-225: the chain of blocks from `gray.head` to `gray.tail` (each as its 512 words; an
unwritten word is `none`), and `start`/`end`, counted in words instead of bytes. The empty chain stands
for `gray.head == NULL`. -/
structure GrayQ (α : Type) where
  chunks : List (List (Option α))
  start : Nat
  stop : Nat

/-- a block fresh from `getBlock(gc, 0)` (its contents do not matter) -/
def newChunk (α : Type) : List (Option α) := List.replicate CHUNK none

/-- src/gc.c:602-609 `gcQueueInit` -/
def GrayQ.init (α : Type) : GrayQ α := ⟨[newChunk α], 0, 0⟩

/-- src/gc.c:611-623 `gcEnqueue`. `none`: there is no tail block, or the write leaves it. -/
def GrayQ.enqueue {α : Type} (q : GrayQ α) (p : α) : Option (GrayQ α) :=
  if q.chunks.isEmpty then none
  else
    let q := if q.stop + 1 > CHUNK then { q with chunks := q.chunks ++ [newChunk α], stop := 0 } else q
    match q.chunks.getLast? with
    | none => none
    | some b =>
      if q.stop < b.length then
        some { q with chunks := q.chunks.dropLast ++ [b.set q.stop (some p)], stop := q.stop + 1 }
      else none

/-- src/gc.c:625-648 `gcDequeue`: the inner `none` is the returned NULL. The outer `none`: a NULL head is
dereferenced, or a word is read that was never written. -/
def GrayQ.dequeue {α : Type} (q : GrayQ α) : Option (Option α × GrayQ α) :=
  match q.chunks with
  | [] => none
  | b :: rest =>
    let q' : GrayQ α := if q.start ≥ CHUNK then { q with chunks := rest, start := 0 } else { q with chunks := b :: rest }
    match q'.chunks with
    | [] => some (none, q')
    | b :: rest =>
      if rest.isEmpty ∧ q'.start ≥ q'.stop then some (none, ⟨[], 0, 0⟩)
      else
        match b[q'.start]? with
        | some (some x) => some (some x, { q' with start := q'.start + 1 })
        | _ => none

end Cora.GC
