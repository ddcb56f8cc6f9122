import Verif.Model.Buffer
import Verif.Model.Vector
import Verif.Spec.Lists
/-
Model of /repo/src/export.c, the functions a program in another language calls (declared in /repo/src/cora.h). A C `int` is a
`BitVec 32`; memory behind a pointer of the host is a list of bytes. `none`: a failed assertion or an access out of bounds.
-/
namespace Cora.Export
open Spec

/-- src/export.c:67-70 `coraMakeNumber` -/
def coraMakeNumber (v : BitVec 32) : Option Obj := makeNumber v.toInt

/-- src/export.c:92-95 `coraFixnum`: the `int64_t` of `fixnum` is converted to `int`, which keeps the low 32 bits -/
def coraFixnum (o : Obj) : Option (BitVec 32) := (fixnum o).map (BitVec.ofInt 32)

/-- src/export.c:47-50 `coraMakeString` on the memory `p` points to -/
def coraMakeString (junk : Nat → Byte) (p : Bytes) (len : BitVec 32) : Option Buffer.Block := do
  Buffer.makeString junk (← readRange p 0 len.toInt)

/-- src/export.c:52-55 `coraMakeCString`, src/types.c:133-136: `strlen` reads up to the first NUL; `none` when there is none in the
memory `p` points to -/
def coraMakeCString (junk : Nat → Byte) (p : Bytes) : Option Buffer.Block :=
  if 0 ∈ p then Buffer.makeString junk (p.takeWhile (· ≠ 0)) else none

/-- src/export.c:62-65 `coraBytesData`: what is in the memory behind the pointer -/
def coraBytesData (b : Buffer.Block) : Bytes := b.mem

/-- src/export.c:72-75 `coraMakeVector` -/
def coraMakeVector (junk : Nat → Obj) (size cap : BitVec 32) : Option Vec := makeVector junk size.toInt cap.toInt

/-- src/export.c:77-80 `coraVectorRef` -/
def coraVectorRef (v : Vec) (idx : BitVec 32) : Option Obj := vectorRef v idx.toInt

/-- src/export.c:82-85 `coraVectorSet` -/
def coraVectorSet (v : Vec) (idx : BitVec 32) (x : Obj) : Option Vec := vectorSet v idx.toInt x

/-- a history of `coraVectorSet` -/
def stores (v : Vec) : List (BitVec 32 × Obj) → Option Vec
  | [] => some v
  | (i, x) :: r => do stores (← coraVectorSet v i x) r

/-- src/reader.c:75-83: the loop of `reverse`; `car` and `cdr` of what is no pair fail their assertion -/
def reverseLoop {α : Type} : V α → V α → Option (V α)
  | .nil, ret => some ret
  | .cons a d, ret => reverseLoop d (.cons a ret)
  | .atom _, _ => none

/-- src/export.c:87-90 `coraReverse` -/
def coraReverse {α : Type} (o : V α) : Option (V α) := reverseLoop o .nil

/-- src/cora.h:29-73: the functions of the header -/
def declared : List String :=
  ["coraGetGC", "coraMustCObj", "coraMakeNumber", "coraIsNumber", "coraFixnum", "coraMakeBytes", "coraBytesData", "coraBytesLen",
   "coraMakeString", "coraMakeCString", "coraMakeCons", "coraCar", "coraCdr", "coraMakeVector", "coraVectorRef", "coraVectorSet",
   "coraVectorAppend", "coraIsVector", "coraVectorLength", "coraMakeSymbol", "coraSymbolGet", "coraInit", "coraCall", "coraReturn",
   "coraGetResult", "coraRun", "coraRegisterAPI", "coraPrimSet", "coraPrimGenSym", "coraReverse"]

/-- src/export.c:6-100 and src/runtime.c (`coraInit`, `coraCall`, `coraRun`, `coraRegisterAPI`): those that have a definition -/
def defined : List String :=
  ["coraGetResult", "coraGetGC", "coraReturn", "coraSymbolGet", "coraPrimSet", "coraMakeCons", "coraMakeString", "coraMakeCString",
   "coraMakeSymbol", "coraBytesData", "coraMakeNumber", "coraMakeVector", "coraVectorRef", "coraVectorSet", "coraReverse", "coraFixnum",
   "coraPrimGenSym", "coraInit", "coraCall", "coraRun", "coraRegisterAPI"]

end Cora.Export
