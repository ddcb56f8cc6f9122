import Verif.Model.Str
import Verif.Model.Symbols
import Verif.Spec.Register
/-
Model of how a library of C functions is made a package, /repo/src/runtime.c:997-1058. Every buffer is a buffer of Model/Str; `junk` is what
`malloc` and `realloc` find in memory. Variables are a map from names to values (C14: that is what the hash table and the slots are), and
`intern` stops at the first NUL (C13).
-/
open Spec Spec.Reg
namespace Cora.Register

/-- what a variable can hold: a native function with its `nframe`, `fn` and `required` (src/types.c:192-211 `makeNative`, without
captured values), the list of symbols of `*ns-export*`, or anything else -/
inductive Obj where
  | native (nframe : Nat) (fn : Nat) (required : Nat)
  | syms (l : List Bytes)
  | other (n : Nat)
  deriving DecidableEq

abbrev Env := Bytes → Option Obj

/-- src/runtime.c:204-220 `primSet` for an interned symbol -/
def primSet (g : Env) (s : Bytes) (v : Obj) : Env := fun x => if x = s then some v else g x

/-- src/types.c:192-211 `makeNative`: the assertion is `nframe > 0` -/
def makeNative (nframe fn required : Nat) : Option Obj := if nframe > 0 then some (.native nframe fn required) else none

/-- src/runtime.c:1012-1016 and 1038-1042: `pkg#name` as a symbol. `none`: a buffer is written outside. -/
def varSym (junk : Nat → Byte) (pkg name : Bytes) : Option Bytes := do
  let tmp ← fromBlk junk pkg
  let tmp ← strAppend junk tmp 35
  let tmp ← strCat junk tmp name
  some (cname tmp.toStr)

/-- src/runtime.c:1025-1027 and 1048-1050: `pkg#*ns-export*` as a symbol -/
def exportSym (junk : Nat → Byte) (pkg : Bytes) : Option Bytes := do
  let tmp ← fromBlk junk pkg
  let tmp ← strCat junk tmp (ascii "#*ns-export*")
  some (cname tmp.toStr)

/-- src/runtime.h:243-247 `registerEntry`. `func = none` is the null pointer. -/
structure Entry where
  name : Bytes
  func : Option Nat
  args : Nat

/-- src/runtime.c:1010-1019: the symbol of an entry -/
def entrySym (junk : Nat → Byte) (pkg : Bytes) (e : Entry) : Option Bytes :=
  if pkg.length > 0 then varSym junk pkg (cname e.name) else some (cname e.name)

/-- src/runtime.c:1004-1023: the loop over the entries with `exports`. `none`: it runs off the end of the array. -/
def registerLoop (junk : Nat → Byte) (pkg : Bytes) : List Entry → Env → List Bytes → Option (Env × List Bytes)
  | [], _, _ => none
  | e :: r, g, exports =>
    match e.func with
    | none => some (g, exports)
    | some func => do
      let sym ← entrySym junk pkg e
      let f ← makeNative (e.args + 1) func e.args
      registerLoop junk pkg r (primSet g sym f) (cname e.name :: exports)

/-- src/runtime.c:997-1031 `registerAPI`. `m->init` is left out (no library that is here has one). -/
def registerAPI (junk : Nat → Byte) (entries : List Entry) (pkg : Bytes) (g : Env) : Option Env := do
  let (g, exports) ← registerLoop junk pkg entries g []
  if pkg.length > 0 then
    let sym ← exportSym junk pkg
    some (primSet g sym (.syms exports))
  else some g

/-- src/runtime.c:1033-1060 `coraRegisterAPI`. `pkg = none` is the null pointer. `none`: as above, or `makeCons` onto something
that is not the list of exports is left out of the model. -/
def coraRegisterAPI (junk : Nat → Byte) (pkg : Option Bytes) (name : Bytes) (func argc : Nat) (g : Env) : Option Env := do
  let sym ← match pkg with
    | some pkg => varSym junk (cname pkg) (cname name)
    | none => some (cname name)
  let f ← makeNative (argc + 1) func argc
  let g := primSet g sym f
  match pkg with
  | none => some g
  | some pkg => do
    let sym ← exportSym junk (cname pkg)
    let exports ← match g sym with
      | none => some []
      | some (.syms l) => some l
      | some _ => none
    some (primSet g sym (.syms (cname name :: exports)))

/-- lib/io.c:134-145 and the like: one function after the other -/
def coraRegisterAll (junk : Nat → Byte) (pkg : Option Bytes) : List Fn → Env → Option Env
  | [], g => some g
  | f :: r, g => do coraRegisterAll junk pkg r (← coraRegisterAPI junk pkg f.name f.code f.arity g)

end Cora.Register
