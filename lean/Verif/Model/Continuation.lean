import Verif.Spec.Capture
/-
Model of the continuation objects of /repo/src/runtime.c:718-796: what `throw` copies into one heap object, and what calling the
resume function and the garbage collector read out of it.

Memory is a function from word addresses (a word is 8 bytes) to words. Where an object goes is decided by a function that is not
known; that objects do not overlap is C34. What C leaves undefined is `ub`, a failed assertion `abort`.
-/
open Spec.Capture
namespace Cora.Continuation

abbrev Word := BitVec 64
abbrev Mem := Nat → Word

inductive Outcome (α : Type) where
  | ok (a : α)
  | abort
  | ub
deriving DecidableEq

def Outcome.bind {α β : Type} : Outcome α → (α → Outcome β) → Outcome β
  | .ok a, f => f a
  | .abort, _ => .abort
  | .ub, _ => .ub

/-- an allocated object: the address of its first word and how many words it has -/
structure Obj where
  base : Nat
  words : Nat
deriving DecidableEq

def Mem.put (m : Mem) (a : Nat) (v : Word) : Mem := fun x => if x = a then v else m x

/-- a store to the `off`-th word of an object; outside of it is undefined -/
def store (o : Obj) (m : Mem) (off : Nat) (v : Word) : Outcome Mem := if off < o.words then .ok (m.put (o.base + off) v) else .ub

/-- a load of the `off`-th word of an object -/
def load (o : Obj) (m : Mem) (off : Nat) : Outcome Word := if off < o.words then .ok (m (o.base + off)) else .ub

/-- a word made of two 32 bit fields, the one at the lower address first (little endian) -/
def pack (lo hi : BitVec 32) : Word := BitVec.append hi lo

def low (w : Word) : BitVec 32 := w.extractLsb' 0 32
def high (w : Word) : BitVec 32 := w.extractLsb' 32 32

/-- src/gc.c:18-20 -/
def MEM_BLOCK_SIZE : Int := 4096
def HEAP_ARENA_SIZE : Int := 64 * 1024 * 1024

/-- src/types.c:30-38 `newObj` with src/gc.c:551-590 `gcAlloc` and 498-530 `gcAllocLargeObject`: the size is an `int`. A size
of at least one arena fails the assertion of `gcAllocLargeObject`. A negative size passes the assertion of `gcAlloc` (its comparison
with `sizeof` is unsigned) and is then an index in front of a table. -/
def newObj (place : Nat → Nat) (size : Int) : Outcome Obj :=
  if size < 0 then .ub
  else if size ≤ 8 then .abort
  else if MEM_BLOCK_SIZE ≤ size ∧ HEAP_ARENA_SIZE ≤ size then .abort
  else .ok ⟨place size.toNat, size.toNat / 8⟩

/-- src/runtime.c:733-740: `sizeof(struct scmContinuation)` (16) and the bytes of the frames (32 each) and the segment pointers (8 each),
added up as `size_t` -/
def bytes (len count : Nat) : Nat := 16 + len * 32 + count * 8

/-- src/runtime.c:743-746: `p[i] = callstack[i]`; a `Frame` (src/runtime.h:13-18) is four words, the second one the `int` label and padding,
whose contents (`pad`) are not known -/
def putFrames (o : Obj) (pad : Nat → BitVec 32) : Mem → Nat → List Frame → Outcome Mem
  | m, _, [] => .ok m
  | m, i, f :: fs =>
    (store o m (2 + 4 * i) f.fn).bind fun m =>
    (store o m (2 + 4 * i + 1) (pack f.label (pad i))).bind fun m =>
    (store o m (2 + 4 * i + 2) f.bp).bind fun m =>
    (store o m (2 + 4 * i + 3) f.sp).bind fun m =>
    putFrames o pad m (i + 1) fs

/-- src/runtime.c:747-750: `q[i] = stk[i]`, behind the `len` frames -/
def putSegs (o : Obj) (len : Nat) : Mem → Nat → List Word → Outcome Mem
  | m, _, [] => .ok m
  | m, i, s :: ss => (store o m (2 + 4 * len + i) s).bind fun m => putSegs o len m (i + 1) ss

/-- src/runtime.c:733-753 `makeContinuation`; `head` is what the allocator writes into the object's head -/
def makeContinuation (place : Nat → Nat) (pad : Nat → BitVec 32) (head : Word) (m : Mem) (callstack : List Frame) (stk : List Word) :
    Outcome (Obj × Mem) :=
  (newObj place (BitVec.ofNat 32 (bytes callstack.length stk.length)).toInt).bind fun o =>
  (store o m 0 head).bind fun m =>
  (store o m 1 (pack (BitVec.ofNat 32 stk.length) (BitVec.ofNat 32 callstack.length))).bind fun m =>
  (putFrames o pad m 0 callstack).bind fun m =>
  (putSegs o callstack.length m 0 stk).bind fun m => .ok (o, m)

/-- a `Frame` in an object, from word `at_` on -/
def getFrame (o : Obj) (m : Mem) (at_ : Nat) : Outcome Frame :=
  (load o m at_).bind fun fn =>
  (load o m (at_ + 1)).bind fun l =>
  (load o m (at_ + 2)).bind fun bp =>
  (load o m (at_ + 3)).bind fun sp => .ok ⟨fn, low l, bp, sp⟩

/-- src/runtime.c:783-785: `vecAppend(&co->callstack, p[i])` for `n` more frames from the `i`-th on -/
def getFrames (o : Obj) (m : Mem) : Nat → Nat → List Frame → Outcome (List Frame)
  | _, 0, acc => .ok acc
  | i, n + 1, acc => (getFrame o m (2 + 4 * i)).bind fun f => getFrames o m (i + 1) n (acc ++ [f])

/-- src/runtime.c:786-789: `vecAppend(&co->stk.data, stk[i])` for `n` more segments -/
def getSegs (o : Obj) (len : Nat) (m : Mem) : Nat → Nat → List Word → Outcome (List Word)
  | _, 0, acc => .ok acc
  | i, n + 1, acc => (load o m (2 + 4 * len + i)).bind fun s => getSegs o len m (i + 1) n (acc ++ [s])

/-- the `count` and `len` fields, as loop bounds: a negative `int` runs no round -/
def fields (o : Obj) (m : Mem) : Outcome (Nat × Nat) := (load o m 1).bind fun w => .ok ((low w).toInt.toNat, (high w).toInt.toNat)

/-- src/runtime.c:768-796 `continuationAsClosure`: what it does to the stacks; the marks of `try` are in Model/VM -/
def resume (o : Obj) (m : Mem) (c : Control) : Outcome Control :=
  (fields o m).bind fun (count, len) =>
  (getFrames o m 0 len c.frames).bind fun fs =>
  (getSegs o len m 0 count c.segs).bind fun ss => .ok ⟨fs, ss⟩

/-- src/runtime.c:762-764: the values of `p` in the loop from `bp` up to `sp`, by 8 bytes -/
def walk (bp sp : Nat) : List Nat := (List.range ((sp - bp + 7) / 8)).map fun i => bp + 8 * i

/-- src/runtime.c:755-766 `continuationGCFunc`: the addresses whose contents are marked -/
def marks (o : Obj) (m : Mem) : Outcome (List Nat) :=
  (fields o m).bind fun (_, len) =>
  (getFrames o m 0 len []).bind fun fs => .ok (fs.flatMap fun f => walk f.bp.toNat f.sp.toNat)

/-- src/runtime.c:805-809, 818-826: `builtinThrow` copies the frames from the position of the mark on and the segments likewise, then
cuts both stacks there. Clearing the entries that are cut off (819-821) is left out. -/
def throw (place : Nat → Nat) (pad : Nat → BitVec 32) (head : Word) (m : Mem) (c : Control) (callstackPos segmentStackPos : Nat) :
    Outcome (Obj × Mem × Control) :=
  (makeContinuation place pad head m (c.frames.drop callstackPos) (c.segs.drop segmentStackPos)).bind fun (o, m) =>
    .ok (o, m, ⟨c.frames.take callstackPos, c.segs.take segmentStackPos⟩)

end Cora.Continuation
