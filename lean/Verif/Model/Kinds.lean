import Verif.Model.NaNBox
/-
What the operations on pairs, strings, vectors, functions, symbols and C objects do with a word of any kind. Memory is
modelled byte by byte, since the functions read it before they know what is there.

Simplifications. Little endian, `int` of 4 bytes, pointers of 8 bytes, fields aligned to their size (x86-64, arm64). The first page is not
mapped. Of a call only the reading of the function object is modelled, of `set` only which place is written. `none` stands for the end of the process: a failed
assertion (`__builtin_trap`) or memory that is not mapped.
-/
namespace Cora.Kinds

/-- the bytes of the process; `none`: not mapped -/
abbrev Mem := Nat → Option (BitVec 8)

/-- `n` bytes from address `a` on -/
def bytesAt (m : Mem) (a : Nat) : Nat → Option (List (BitVec 8))
  | 0 => some []
  | n + 1 => do return (← m a) :: (← bytesAt m (a + 1) n)

/-- the number that the bytes stand for, the lowest first -/
def le : List (BitVec 8) → Nat
  | [] => 0
  | b :: r => b.toNat + 256 * le r

/-- an `int` at address `a` -/
def int32At (m : Mem) (a : Nat) : Option Int := do
  let n := le (← bytesAt m a 4)
  return if n < 2 ^ 31 then (n : Int) else (n : Int) - 2 ^ 32

/-- a word at address `a` -/
def wordAt (m : Mem) (a : Nat) : Option Obj := do return BitVec.ofNat 64 (le (← bytesAt m a 8))

/-- src/gc.h:10-24 -/
def scmHeadSymbol : BitVec 8 := 2
@[inherit_doc scmHeadSymbol] def scmHeadCons : BitVec 8 := 3
@[inherit_doc scmHeadSymbol] def scmHeadBytes : BitVec 8 := 4
@[inherit_doc scmHeadSymbol] def scmHeadVector : BitVec 8 := 5
@[inherit_doc scmHeadSymbol] def scmHeadContinuation : BitVec 8 := 6
@[inherit_doc scmHeadSymbol] def scmHeadNative : BitVec 8 := 7

/-- src/gc.h:71 -/
def addr (o : Obj) : Nat := (ptrOf o).toNat

/-- `((scmHead *)ptr(o))->type`: behind the four bytes of `size` (src/gc.h:29-33) -/
def typeOf (m : Mem) (o : Obj) : Option (BitVec 8) := m (addr o + 4)

/-- `assert(c)` (src/types.h:14) -/
def assert (c : Bool) : Option Unit := if c then some () else none

/-- src/types.h:72 `car`; `struct scmCons` (src/types.h:54-58): the header, then the two words -/
def car (m : Mem) (o : Obj) : Option Obj := do
  assert ((← typeOf m o) == scmHeadCons)
  wordAt m (addr o + 8)

/-- src/types.h:73 `cdr` -/
def cdr (m : Mem) (o : Obj) : Option Obj := do
  assert ((← typeOf m o) == scmHeadCons)
  wordAt m (addr o + 16)

/-- src/types.h:95 `PRIM_CAR`: `car` in compiled code -/
def PRIM_CAR (m : Mem) (o : Obj) : Option Obj := wordAt m (addr o + 8)

/-- src/types.c:117-122 `bytesLen`; `struct scmBytes` (src/types.h:110-114): the header, `len`, the characters -/
def bytesLen (m : Mem) (o : Obj) : Option Int := do
  assert ((← typeOf m o) == scmHeadBytes)
  int32At m (addr o + 8)

/-- src/types.c:110-115 `bytesData`: the address of the characters; src/types.c:138-146 `stringStr` gives both -/
def bytesData (m : Mem) (o : Obj) : Option Nat := do
  assert ((← typeOf m o) == scmHeadBytes)
  some (addr o + 12)

/-- src/types.c:334-342 `isvector`, for `vector?` (src/runtime.c:555-564) -/
def isvector (m : Mem) (o : Obj) : Option Bool :=
  if tagOf o = TAG_PTR.setWidth 64 then do return (← typeOf m o) == scmHeadVector else some false

/-- src/types.c:293-298 `vectorLength`, for `vector-length` (src/runtime.c:591-596); `struct scmVector` (src/gc.h:89-94): a header of 24 bytes
(src/gc.h:35-42), `size`, `cap`, the words -/
def vectorLength (m : Mem) (o : Obj) : Option Int := do
  assert (← isvector m o)
  int32At m (addr o + 24)

/-- src/types.c:283-291 `vectorSet`: the address that is written -/
def vectorSet (m : Mem) (o : Obj) (i : Int) : Option Nat := do
  assert ((← typeOf m o) == scmHeadVector)
  assert (decide (0 ≤ i) && decide (i < (← int32At m (addr o + 24))))
  some (addr o + 32 + 8 * i.toNat)

/-- src/types.c:275-281 `vectorRef` -/
def vectorRef (m : Mem) (o : Obj) (i : Int) : Option Obj := do wordAt m (← vectorSet m o i)

/-- src/runtime.h:91-103 `coraCall0` and its siblings, src/runtime.c:371-372 `apply`: the number of arguments that the function wants and the address of its
code; `struct scmNative` (src/types.h:138-146): the header, `required`, `nframe`, `fn` -/
def callee (m : Mem) (o : Obj) : Option (Int × Obj) := do
  assert ((← typeOf m o) == scmHeadNative)
  return (← int32At m (addr o + 8), ← wordAt m (addr o + 16))

/-- src/types.c:55-59 `mustCObj` -/
def mustCObj (o : Obj) : Option Nat := if tagOf o = TAG_COBJ.setWidth 64 then some (addr o) else none

/-- the place of a variable: of the symbol whose name is at this address, or of the symbol without name at this one -/
inductive Place where
  | global (name : Nat)
  | own (symbol : Nat)
deriving DecidableEq

/-- src/runtime.c:204-220 `primSet`: which variable is set -/
def placeOf (m : Mem) (o : Obj) : Option Place :=
  if tagOf o = TAG_SYMBOL.setWidth 64 then some (.global (addr o))
  else if tagOf o = TAG_PTR.setWidth 64 then do
    assert ((← typeOf m o) == scmHeadSymbol)
    some (.own (addr o))
  else none

end Cora.Kinds
