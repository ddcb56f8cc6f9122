import Verif.Model.Alloc
/-
What the program and the collector do between allocations, and the memory that is handed out in a history of
allocations. Used by C34.
-/
namespace Spec.Alloc
open Cora.Alloc Cora.GC

/-- the two pieces of memory have no byte in common -/
def Disjoint (r r' : Region) : Prop := r.large ≠ r'.large ∨ r.arena ≠ r'.arena ∨ r.hi ≤ r'.lo ∨ r'.hi ≤ r.lo

/-- the header at the start of the memory -/
def headAt (s : Heap) (r : Region) : Option Head :=
  if r.large then ((s.large ++ s.parked).find? (·.id == r.arena)).map (·.head (r.lo / 4096))
  else some (s.head (r.arena * 16384 + r.lo / 4096) (r.lo % 4096))

/-- the object there is in use at version `v` -/
def inUseAt (v : Nat) (s : Heap) (r : Region) : Bool :=
  match headAt s r with
  | some h => inuse v h
  | none => false

/-- from block `i` to block `j` there are objects (used, dead or free), one after the other; the blocks of each
know where it begins -/
inductive Tiles (a : LArena) : Nat → Nat → Prop where
  | nil (i) : Tiles a i i
  | cons {i j} : 0 < lslots (a.head i) → (∀ x, i ≤ x → x < i + lslots (a.head i) → a.base x = i) →
      Tiles a (i + lslots (a.head i)) j → Tiles a i j

/-- there is an object at block `t` -/
def Tile (a : LArena) (t : Nat) : Prop := Tiles a 0 t ∧ Tiles a t a.idx ∧ t < a.idx

/-- what can happen to the header of an object: marking changes the version -/
def Marked (gv : Nat) (h h' : Head) : Prop :=
  inuse gv h = true ∧ inuse gv h' = true ∧ h'.used = h.used ∧ h'.size = h.size ∧ h'.slots = h.slots

/-- marking and the program, in an arena for large objects; anything can happen inside of the objects -/
structure EnvLarge (gv : Nat) (a a' : LArena) : Prop where
  id : a'.id = a.id
  idx : a'.idx = a.idx
  curr : a'.curr = a.curr
  base : a'.base = a.base
  head : ∀ t, Tile a t → a'.head t = a.head t ∨ Marked gv (a.head t) (a'.head t)

/-- What marking (src/gc.c:726-805), the sweeping of small objects (src/gc.c:986-1000) and the program do. Marking an
object touches its block (src/gc.c:777); sweeping makes objects unused that are not in use. Blocks of the gray queue and the inside of
objects can change in any way; the collector begins. -/
structure Env (s s' : Heap) : Prop where
  nblocks : s'.nblocks = s.nblocks
  lists : s'.lists = s.lists
  free : s'.free = s.free
  gray : s'.gray = s.gray
  made : s'.made = s.made
  gv : s'.gv = s.gv
  cls : ∀ k, (s'.blk k).cls = (s.blk k).cls
  curr : ∀ k, (s'.blk k).curr = (s.blk k).curr
  touch : ∀ k, (s'.blk k).touch = (s.blk k).touch ∨ (s.blk k).cls ≠ 0 ∧ (s'.blk k).touch = true
  idle : ∀ k, (s.blk k).cls = 0 → k ∉ s.gray → s'.head k = s.head k
  head : ∀ k off, (s.blk k).cls ≠ 0 → (s.blk k).cls ∣ off → off + (s.blk k).cls ≤ 4096 →
    s'.head k off = s.head k off ∨ (s'.blk k).touch = true ∧ Marked s.gv (s.head k off) (s'.head k off) ∨
      inuse s.gv (s.head k off) = false ∧ (s'.head k off).used = false
  /-- nothing is written behind the last object that fits into a block -/
  rest : ∀ k off, (s.blk k).cls ≠ 0 → (s.blk k).cls ∣ off → 4096 < off + (s.blk k).cls → s'.head k off = s.head k off
  large : ∃ f : LArena → LArena, s'.large = s.large.map f ∧ s'.parked = s.parked.map f ∧
    ∀ a ∈ s.large ++ s.parked, EnvLarge s.gv a (f a)

/-- a step after which no object is gone -/
inductive Step : Heap → Heap → Prop where
  | env {s s'} : Env s s' → Step s s'
  | grayGet {s s'} : grayGet s = some s' → Step s s'
  | grayPut {s b} : b ∈ s.gray → Step s (grayPut s b)
  /-- sweeping the large objects of an arena -/
  | sweep {s front a rest n a'} : s.large = front ++ a :: rest → sweepFrom s.gv n a a.curr = some a' →
      Step s { s with large := front ++ a' :: rest }

/-- The histories: the state, and the memory that has been handed out and is still in use. At a flip the objects are gone that are not in
use at the new version. -/
inductive History : Heap → List Region → Prop where
  | init : History .init []
  | alloc {s G n size s' r} : History s G → 0 < size → alloc n s size = some (s', r) → History s' (r :: G)
  | step {s G s'} : History s G → Step s s' → History s' G
  | flip {s G} : History s G → History (flip s) (G.filter fun r => inUseAt (s.gv + 2) s r)

end Spec.Alloc
