import Verif.Model.NaNBox
import Verif.Model.Str
/-
Model of the `=` primitive, `eq` in /repo/src/types.h, over a heap of pairs and byte strings.
-/
namespace Cora

/-- A heap cell, as far as `eq` looks at it: src/types.h:54-58 `struct scmCons`, src/types.h:109-113
`struct scmBytes`; any other object is `other`. -/
inductive Cell where
  | cons (car cdr : Obj)
  | bytes (data : Bytes)
  | other
deriving Repr, DecidableEq

/-- What lies at each address. -/
abbrev Mem := Obj → Option Cell

/-- src/types.h:72 `car`: `none` is the failed assertion (or a wild pointer). -/
def carOf (m : Mem) (o : Obj) : Option Obj :=
  match m (ptrOf o) with
  | some (.cons a _) => some a
  | _ => none

/-- src/types.h:73 `cdr`. -/
def cdrOf (m : Mem) (o : Obj) : Option Obj :=
  match m (ptrOf o) with
  | some (.cons _ d) => some d
  | _ => none

/-- the view built at src/types.h:125-128 -/
def bytesOf (m : Mem) (o : Obj) : Option Bytes :=
  match m (ptrOf o) with
  | some (.bytes b) => some b
  | _ => none

/-- src/types.h:116-134 `eq`. The fuel stands for the C recursion depth: `none` is a trap, a wild read,
or running out of it. -/
def eqObj (m : Mem) : Nat → Obj → Obj → Option Bool
  | 0, _, _ => none
  | fuel + 1, x, y =>
    if x = y then some true
    else if iscons x && iscons y then do
      let a ← carOf m x
      let b ← carOf m y
      if ← eqObj m fuel a b then
        let c ← cdrOf m x
        let d ← cdrOf m y
        eqObj m fuel c d
      else some false
    else if isBytes x && isBytes y then do
      let s ← bytesOf m x
      let t ← bytesOf m y
      some (strCmp s t == 0)
    else some false

end Cora
