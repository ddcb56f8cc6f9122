import Verif.Model.NaNBox
import Verif.Model.Str
/-
Model of cora vectors (/repo/src/types.c, /repo/src/runtime.c).

Simplifications: one vector is modelled by itself (stores to one vector do not touch others because
their memory is disjoint, see C34); write barriers are modelled with the collector.
-/
namespace Cora

/-- src/gc.h:89-94 `struct scmVector`: `data` is the `cap` words allocated behind the header; those at
index `size` and beyond are not initialised. -/
structure Vec where
  size : Nat
  data : List Obj
deriving Repr, DecidableEq

/-- the `cap` field -/
def Vec.cap (v : Vec) : Nat := v.data.length

/-- src/types.c:260-273 `makeVector`. `junk` is what the fresh memory contains. `none` stands for the
failed assertion `size <= cap`, for the failed assertions of `gcAlloc` and `gcAllocLargeObject` on the
byte size (src/gc.c:554, 501: the size is an `int`), and — for a negative capacity — for the stores to
the header fields that then lie outside the allocation (undefined behaviour). -/
def makeVector (junk : Nat → Obj) (size cap : Int) : Option Vec :=
  if size ≤ cap ∧ 0 ≤ cap ∧ 0 ≤ size ∧ 32 + 8 * cap < 64 * 1024 * 1024 then
    some ⟨size.toNat, List.replicate size.toNat Undef ++
      (List.range (cap.toNat - size.toNat)).map junk⟩
  else none

/-- src/runtime.c:566-573 `builtinVector`: the length argument is converted to `int`. -/
def builtinVector (junk : Nat → Obj) (n : Int) : Option Vec := makeVector junk (toInt32 n) (toInt32 n)

/-- src/types.c:275-281 `vectorRef`; `none` is the failed bounds assertion or a read outside `data`. -/
def vectorRef (v : Vec) (idx : Int) : Option Obj :=
  if 0 ≤ idx ∧ idx < v.size then v.data[idx.toNat]? else none

/-- src/types.c:283-291 `vectorSet`; `none` is the failed bounds assertion or a write outside `data`. -/
def vectorSet (v : Vec) (idx : Int) (x : Obj) : Option Vec :=
  if 0 ≤ idx ∧ idx < v.size then
    if idx.toNat < v.data.length then some { v with data := v.data.set idx.toNat x } else none
  else none

/-- src/runtime.c:575-580 `builtinVectorRef`: the index is converted to `int`. -/
def builtinVectorRef (v : Vec) (i : Int) : Option Obj := vectorRef v (toInt32 i)
/-- src/runtime.c:582-589 `builtinVectorSet`. -/
def builtinVectorSet (v : Vec) (i : Int) (x : Obj) : Option Vec := vectorSet v (toInt32 i) x
/-- src/types.c:293-298 `vectorLength`. -/
def vectorLength (v : Vec) : Nat := v.size

/-- src/types.c:313-318: the grown capacity. -/
def vecNewCap (cap : Nat) : Nat := if cap < 1024 then cap * 2 else cap + cap / 4

/-- src/types.c:307-332 `vectorAppend`: returns the vector holding the result (a fresh one when the old
one was full, otherwise the old one itself). `none`: the assertion `cap > 0` fails, the allocation fails,
or a write leaves the allocation. -/
def vectorAppend (junk : Nat → Obj) (v : Vec) (x : Obj) : Option Vec := do
  let v ← if v.size ≥ v.cap then
      if v.cap > 0 then do
        let tmp ← makeVector junk v.size (vecNewCap v.cap)
        -- src/types.c:321 memcpy
        if v.size ≤ tmp.data.length ∧ v.size ≤ v.data.length then
          some { tmp with data := v.data.take v.size ++ tmp.data.drop v.size }
        else none
      else none
    else some v
  -- src/types.c:329-330
  if v.size < v.data.length then some ⟨v.size + 1, v.data.set v.size x⟩ else none

/-- a sequence of stores -/
def runStores (v : Vec) : List (Int × Obj) → Option Vec
  | [] => some v
  | (i, x) :: r => do runStores (← builtinVectorSet v i x) r

/-- a sequence of appends, each with its own garbage from the allocator -/
def runAppends (v : Vec) : List ((Nat → Obj) × Obj) → Option Vec
  | [] => some v
  | (j, x) :: r => do runAppends (← vectorAppend j v x) r

end Cora
