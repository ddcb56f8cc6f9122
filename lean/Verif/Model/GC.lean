import Verif.Model.GCBase
/-
Model of the incremental, generational collector of /repo/src/gc.c, at the level of object slots.

What is abstracted:
* An object slot is identified by a pair (block, index); the address arithmetic is modelled separately
  (C34). Pointers held in objects point at slot headers.
* The 8-bit version byte is kept as its two fields, generation (2 bits) and version (6 bits).
* The gray queue is a list (the block chain is proved to behave as one, C33).
* The `inRSet` flag is membership in the remembered set. (The flag is cleared when a slot is reused; the
  proof shows that a slot in the remembered set is never reused.)
* The order in which blocks of a size class are used, and how many collector steps run per allocation,
  are left open: a step of the model may use any listed block and the collector may run at any time its
  phase allows it. Statistics and trigger sizes are left out: a cycle may start whenever none is running.
-/
namespace Cora.GC

/-- a block and an index in it -/
abbrev SlotId := Nat × Nat

/-- src/gc.h:27 `version_t`: 2 bits of generation and 6 bits of version -/
structure Version where
  gen : Nat
  ver : Nat
deriving DecidableEq, Repr

/-- src/gc.h:29-33 `scmHead` and the pointer fields behind it: `used` is `type != scmHeadUnused`; a field
holding a non-pointer value is `none`. -/
structure Slot where
  used : Bool
  version : Version
  kids : List (Option SlotId)
deriving Repr

/-- zeroed memory -/
def Slot.zero : Slot := ⟨false, ⟨0, 0⟩, []⟩

/-- src/gc.c:12-17 `enum gcState`. `gcStateMark` only exists between src/runtime.c:82 and 83 (the roots are
marked at once), so it is not a state of the model. -/
inductive Phase where
  | none | incr | sweep
deriving DecidableEq, Repr

/-- src/gc.c:201-234 `struct GC` and src/gc.c:24-44 `struct Block`. `nslots b` is the number of slots of
the block's size class (0 when it has none); `listed b`: the block is in a `gc->sizeClass` list; `curr b`
counts slots. -/
structure St where
  phase : Phase
  version : Nat
  obj : SlotId → Slot
  gray : List SlotId
  rset : List SlotId
  nslots : Nat → Nat
  curr : Nat → Nat
  listed : Nat → Bool
  touch : Nat → Bool

/-- function update -/
def upd {α β : Type} [DecidableEq α] (f : α → β) (a : α) (b : β) : α → β := fun x => if x = a then b else f x

/-- store a slot -/
def St.setObj (s : St) (x : SlotId) (o : Slot) : St := { s with obj := upd s.obj x o }
/-- store a version -/
def St.setVersion (s : St) (x : SlotId) (v : Version) : St := s.setObj x { s.obj x with version := v }
/-- set a block's `touch` -/
def St.setTouch (s : St) (b : Nat) : St := { s with touch := upd s.touch b true }

/-- src/gc.c:161-174 `versionCmp` on masked arguments, for which its assertions hold -/
def vcmp (a b : Nat) : Int := (versionCmp ((a % 64 : Nat) : Int) ((b % 64 : Nat) : Int)).getD 0

/-- src/gc.c:334-347 `inuse` -/
def inuse (s : St) (o : Slot) : Nat :=
  if o.used = false then 0
  else if vcmp s.version o.version.ver > 0 then 0
  else if vcmp s.version o.version.ver = 0 then 1
  else 2

/-- src/gc.c:727: the asserted condition on `minv` (`none` is 0) -/
def minvOk : Option Version → Bool
  | some m => m.ver % 2 == 1
  | none => true

/-- src/gc.c:726-765 `markObject`, together with the `touch` of src/gc.c:776-778. `none` is a failed
assertion. -/
def markObject (s : St) (x : SlotId) (minv : Option Version) : Option St :=
  if minvOk minv then
    let f := s.obj x
    if f.version.ver % 2 = 1 then
      match minv with
      | some m => if vcmp m.ver f.version.ver > 0 then some (s.setVersion x m) else some s
      | none => some s
    else do
      -- src/gc.c:745-748
      let r1 ← if f.version.ver % 64 = s.version % 64 then
          (nextVersion f.version.gen s.version).map (fun (g, v) => ((⟨g, v⟩ : Version), true))
        else some (f.version, false)
      -- src/gc.c:750-757
      let r2 := match minv with
        | some m => if vcmp m.ver r1.1.ver > 0 then (m, true) else r1
        | none => r1
      -- src/gc.c:759-764
      if r2.2 then
        let s := s.setVersion x r2.1
        let s := { s with gray := s.gray ++ [x] }
        some (s.setTouch x.1)
      else some s
  else none

/-- `large b`: the block stands for a large-object arena (src/gc.c:59). -/
class Layout where
  large : Nat → Bool

variable [Layout]

/-- src/gc.c:654-693 `checkPointer`: is there an in-use object? Blocks without a size class hold none. -/
def checkPointer (s : St) (x : SlotId) : Bool :=
  if Layout.large x.1 = false ∧ s.nslots x.1 = 0 then false else inuse s (s.obj x) != 0

/-- src/gc.c:767-779 `gcMark` -/
def gcMark (s : St) (x : SlotId) (minv : Option Version) : Option St :=
  if checkPointer s x then markObject s x minv else some s

/-- marking every pointer of a list of fields: the loops of the `gcFunc`s (src/types.c:220-227, 344-358,
`consGCFunc`), of `gcRSet` (src/gc.c:1149-1151) and of the root callback (src/runtime.c:1135-1153) -/
def markAll (s : St) (minv : Option Version) : List (Option SlotId) → Option St
  | [] => some s
  | some x :: r => do markAll (← gcMark s x minv) minv r
  | none :: r => markAll s minv r

/-- src/gc.c:1122-1164 `gcRSet`: walks the list; `kept` collects the entries that stay. -/
def gcRSetLoop (s : St) (kept : List SlotId) : List SlotId → Option St
  | [] => some { s with rset := kept.reverse }
  | p :: r =>
    if vcmp s.version (s.obj p).version.ver ≥ 0 then gcRSetLoop s kept r
    else do gcRSetLoop (← markAll s none (s.obj p).kids) (p :: kept) r

/-- src/gc.c:789-805 `gcMarkRoot` with the root callback src/runtime.c:1130-1154; `roots` are the words
found in globals, frames and registers (some may be leftovers that point anywhere). -/
def gcMarkRoot (s : St) (roots : List (Option SlotId)) : Option St := do
  let s := { s with gray := [] }
  let s ← markAll s none roots
  let s ← gcRSetLoop s [] s.rset
  some { s with phase := .incr }

/-- src/gc.c:827-947 `gcFlip`: blocks still listed are touched; untouched blocks give up their slots and
go to the free list (zeroed, src/gc.c:268); touched ones are listed again; the version advances by 2. -/
def gcFlip (s : St) : St :=
  let touch := fun b => s.touch b || s.listed b
  let recycle := fun b => !Layout.large b && decide (s.nslots b ≠ 0) && !touch b
  { s with
    touch := touch
    obj := fun x => if recycle x.1 then Slot.zero else s.obj x
    nslots := fun b => if recycle b then 0 else s.nslots b
    listed := fun b => !Layout.large b && decide (s.nslots b ≠ 0) && touch b
    curr := fun _ => 0
    version := s.version + 2
    phase := .none }

/-- src/gc.c:955-979: one round of the loop of `gcRunIncremental`. `none` is the failed assertion that a
dequeued object is gray. -/
def gcRunIncremental1 (s : St) : Option St :=
  match s.gray with
  | [] => if s.version % 30 = 0 then some { s with phase := .sweep } else some (gcFlip s)
  | x :: rest => do
    let s := { s with gray := rest }
    if (s.obj x).version.ver % 2 = 1 then
      let s ← markAll s (some (s.obj x).version) (s.obj x).kids
      some (s.setVersion x ⟨(s.obj x).version.gen, ((s.obj x).version.ver + 1) % 64⟩)
    else none

/-- src/gc.c:1075-1079: the deletion barrier of `writeBarrierForIncremental`: while marking, the reference
about to be overwritten is marked. -/
def markOld (s : St) (a : SlotId) (i : Nat) : Option St :=
  if s.phase = .incr then
    match (s.obj a).kids[i]? with
    | some (some old) => gcMark s old none
    | _ => some s
  else some s

/-- src/gc.c:1073-1081 `writeBarrierForIncremental` on field `i` of object `a` -/
def barrierIncr (s : St) (a : SlotId) (i : Nat) (v : Option SlotId) : Option St := do
  let s ← markOld s a i
  some (s.setObj a { s.obj a with kids := (s.obj a).kids.set i v })

/-- src/gc.c:1100-1104, 1113-1117 -/
def addRSet (s : St) (a : SlotId) : St := if a ∈ s.rset then s else { s with rset := a :: s.rset }

/-- src/gc.c:1083-1120 `writeBarrierForGeneration` -/
def barrierGen (s : St) (a : SlotId) (v : Option SlotId) : Option St :=
  match v with
  | none => some s
  | some h =>
    if vcmp (s.obj a).version.ver (s.obj h).version.ver ≤ 0 then some s
    else
      match s.phase with
      | .none => some (addRSet s a)
      | .sweep => some (addRSet s a)
      | .incr =>
        if (s.obj a).version.ver % 2 = 1 ∧ ((s.obj h).version.ver + 1) % 64 = (s.obj a).version.ver % 64 then some s
        else gcMark (addRSet s a) h none

/-- a store to a vector element or a gensym's value: src/types.c:283-291 `vectorSet`,
src/runtime.c:212-215 -/
def storeField (s : St) (a : SlotId) (i : Nat) (v : Option SlotId) : Option St := do
  let s ← barrierIncr s a i v
  barrierGen s a v

/-- src/types.c:329-330: the in-place branch of `vectorAppend`, which has no barrier -/
def appendField (s : St) (a : SlotId) (v : Option SlotId) : St :=
  s.setObj a { s.obj a with kids := (s.obj a).kids ++ [v] }

/-- src/gc.c:388-396 `allocDone`, src/types.c:35: the new object -/
def newSlot (s : St) (kids : List (Option SlotId)) : Slot :=
  ⟨true, ⟨0, if s.phase = .none then s.version % 64 else (s.version + 2) % 64⟩, kids⟩

/-- src/gc.c:531-550 `blockAlloc`, one round of its loop at slot `curr` of block `b`. The slot is either
taken (`kids` are the fields of the object built there) or skipped. -/
def allocStep (s : St) (b : Nat) (kids : List (Option SlotId)) : St × Option SlotId :=
  let x : SlotId := (b, s.curr b)
  let s1 := { s with curr := upd s.curr b (s.curr b + 1) }
  match inuse s (s.obj x) with
  | 0 =>
    let s2 := if s.phase = .none then s1 else s1.setTouch b
    (s2.setObj x (newSlot s kids), some x)
  | 1 => (s1, none)
  | _ => (s1.setTouch b, none)

/-- src/gc.c:574-577: a fully scanned block leaves the list. -/
def popBlock (s : St) (b : Nat) : St := { s with listed := upd s.listed b false, curr := upd s.curr b 0 }

/-- src/gc.c:349-375 `getBlock`: an unused block gets a size class with `n` slots. `none` is the failed
assertion `touch == false`. -/
def getBlock (s : St) (b n : Nat) : Option St :=
  if s.touch b = false then
    some { s with nslots := upd s.nslots b n, listed := upd s.listed b true, curr := upd s.curr b 0 }
  else none

/-- src/gc.c:415-529: a large object is placed on a dead one, possibly merged with dead neighbours. -/
def allocLarge (s : St) (x : SlotId) (merged : List SlotId) (kids : List (Option SlotId)) : St :=
  let s1 := { s with obj := fun y => if y ∈ merged then { s.obj y with used := false } else s.obj y }
  s1.setObj x (newSlot s kids)

/-- src/gc.c:993-995 and 1010-1019: sweeping a dead slot -/
def sweepSlot (s : St) (x : SlotId) : St := s.setObj x { s.obj x with used := false }

/-- src/gc.c:275-309 `gcInit` -/
def St.init : St :=
  { phase := .none, version := 2, obj := fun _ => Slot.zero, gray := [], rset := [],
    nslots := fun _ => 0, curr := fun _ => 0, listed := fun _ => false, touch := fun _ => false }

/-- The collector together with the program: `held` are the objects the program can currently name (in
globals, frames, registers and C variables). -/
structure Config where
  st : St
  held : List SlotId

/-- src/gc.c:982-1000: when the sweep of the size classes is over, no dead object is left in the part of a
listed block that the allocator has not scanned yet. (Each listed block is visited once; a block that leaves
the list meanwhile has been scanned, and a block that joins it is fresh.) -/
def sweptAll (s : St) : Prop := ∀ x : SlotId, Layout.large x.1 = false → s.listed x.1 = true → s.curr x.1 ≤ x.2 →
  x.2 < s.nslots x.1 → (s.obj x).used = true → inuse s (s.obj x) ≠ 0

/-- What one step did to slots that were in use: nothing, or freed those satisfying the predicate. -/
abbrev Freed := SlotId → Prop

/-- One step of program or collector; the second argument says which slots it makes available for reuse
(or reuses). -/
inductive Step : Config → Freed → Config → Prop where
  /-- the program forgets references -/
  | forget (s held held') (h : ∀ x ∈ held', x ∈ held) : Step ⟨s, held⟩ (fun _ => False) ⟨s, held'⟩
  /-- the program reads field `i` of an object it holds -/
  | load (s held a) (i : Nat) (x) (ha : a ∈ held) (h : (s.obj a).kids[i]? = some (some x)) :
      Step ⟨s, held⟩ (fun _ => False) ⟨s, x :: held⟩
  /-- the program stores to a field of a vector or gensym it holds -/
  | store (s s' held a i) (v : Option SlotId) (ha : a ∈ held) (hv : ∀ x, v = some x → x ∈ held)
      (hi : i < (s.obj a).kids.length) (h : storeField s a i v = some s') :
      Step ⟨s, held⟩ (fun _ => False) ⟨s', held⟩
  /-- a global variable holding `x` is overwritten (src/runtime.h:224-229) -/
  | globalSet (s s' held x) (hx : x ∈ held) (hp : s.phase = .incr) (h : gcMark s x none = some s') :
      Step ⟨s, held⟩ (fun _ => False) ⟨s', held⟩
  /-- an unused block gets a size class -/
  | getBlock (s s' held b n) (hl : Layout.large b = false) (hn : s.nslots b = 0) (hp : 0 < n)
      (h : getBlock s b n = some s') : Step ⟨s, held⟩ (fun _ => False) ⟨s', held⟩
  /-- allocation takes the slot at `curr`, building an object from references the program holds -/
  | allocTake (s held b kids s' x) (hl : s.listed b = true) (hc : s.curr b < s.nslots b)
      (hk : ∀ y, some y ∈ kids → y ∈ held) (h : allocStep s b kids = (s', some x)) :
      Step ⟨s, held⟩ (fun y => y = x) ⟨s', x :: held⟩
  /-- allocation skips an in-use slot -/
  | allocSkip (s held b s') (hl : s.listed b = true) (hc : s.curr b < s.nslots b)
      (h : allocStep s b [] = (s', none)) : Step ⟨s, held⟩ (fun _ => False) ⟨s', held⟩
  /-- a fully scanned block leaves its list -/
  | pop (s held b) (hl : s.listed b = true) (hc : s.curr b = s.nslots b) :
      Step ⟨s, held⟩ (fun _ => False) ⟨popBlock s b, held⟩
  /-- a large object is allocated over dead ones -/
  | allocLarge (s held x merged kids) (hl : Layout.large x.1 = true) (hx : inuse s (s.obj x) = 0)
      (hm : ∀ y ∈ merged, Layout.large y.1 = true ∧ inuse s (s.obj y) = 0)
      (hk : ∀ y, some y ∈ kids → y ∈ held) :
      Step ⟨s, held⟩ (fun y => y = x ∨ y ∈ merged) ⟨allocLarge s x merged kids, x :: held⟩
  /-- a cycle starts; from here on the program holds nothing that is not among the roots -/
  | start (s s' held held') (roots : List (Option SlotId)) (hp : s.phase = .none)
      (hh : ∀ x ∈ held', x ∈ held ∧ some x ∈ roots) (h : gcMarkRoot s roots = some s') :
      Step ⟨s, held⟩ (fun _ => False) ⟨s', held'⟩
  /-- a step of marking; when the queue is empty it ends in a sweep or a flip -/
  | run (s s' held) (hp : s.phase = .incr) (h : gcRunIncremental1 s = some s') :
      Step ⟨s, held⟩ (fun y => (s.obj y).used = true ∧ (s'.obj y).used = false) ⟨s', held⟩
  /-- sweeping a small object (src/gc.c:991-996) -/
  | sweepSmall (s held x) (hp : s.phase = .sweep) (hl : Layout.large x.1 = false) (hx : inuse s (s.obj x) = 0) :
      Step ⟨s, held⟩ (fun y => y = x) ⟨sweepSlot s x, held⟩
  /-- sweeping a large object (src/gc.c:1014; the version is unsigned, so subtracting 2 is adding 62 modulo
  64) -/
  | sweepLarge (s held x) (hp : s.phase = .sweep) (hl : Layout.large x.1 = true)
      (hx : (s.obj x).version.ver = (s.version + 62) % 64) :
      Step ⟨s, held⟩ (fun y => y = x) ⟨sweepSlot s x, held⟩
  /-- the sweep is over (src/gc.c:1029) -/
  | flip (s held) (hp : s.phase = .sweep) (hd : sweptAll s) :
      Step ⟨s, held⟩ (fun y => (s.obj y).used = true ∧ ((gcFlip s).obj y).used = false) ⟨gcFlip s, held⟩

/-- executions from the initial state -/
inductive Run : Config → Prop where
  | init : Run ⟨St.init, []⟩
  | step {c c' : Config} {f : Freed} (h : Run c) (hs : Step c f c') : Run c'

/-- an object the program can reach: it holds it, or finds it in a field of one it can reach -/
inductive Reach (c : Config) : SlotId → Prop where
  | held {x} (h : x ∈ c.held) : Reach c x
  | field {a x} (ha : Reach c a) (h : some x ∈ (c.st.obj a).kids) : Reach c x

end Cora.GC
