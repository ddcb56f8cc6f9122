import Verif.Model.NaNBox
import Verif.Model.Symbols
/-
Model of lib/json.c, the wrapper around the library jansson. The functions of jansson are modelled by what its manual says of them.
-/
namespace Cora.Json

/-- a value of jansson (`json_t`): an object has its members in the order of their insertion, a real number is its bits -/
inductive Node where
  | object (m : List (Bytes × Obj))
  | array (l : List Obj)
  | string (b : Bytes)
  | integer (n : Int)
  | real (bits : Obj)
  | true
  | false
  | null

/-- the values of jansson by their addresses -/
abbrev Heap := Obj → Option Node

/-- what a function returns: a word, a symbol, a new string -/
inductive Res where
  | obj (o : Obj)
  | sym (s : String)
  | str (b : Bytes)
  deriving DecidableEq

/-- src/types.c:55-59 `mustCObj`; the tag is looked at without checking that the word is an object. `none`: the assertion fails. -/
def mustCObj (o : Obj) : Option Obj := if tagOf o = TAG_COBJ.setWidth 64 then some (ptrOf o) else none

/-- src/types.c:48-53 `makeCObj` -/
def makeCObj (p : Obj) : Option Obj := if p &&& TAG_PTR.setWidth 64 = 0 then makeNaNPtr p TAG_COBJ else none

/-- What a function of jansson that checks its argument finds behind a pointer: nothing behind NULL. `none`: the pointer points to
nothing of jansson. -/
def behind (h : Heap) (p : Obj) : Option (Option Node) := if p = 0 then some none else (h p).map some

/-- `True` or `False` -/
def bool (b : Bool) : Res := .obj (if b then True' else False')

/-- lib/json.c:19-54 `jsonTypeOf` (json_typeof reads from the pointer without a check) -/
def jsonTypeOf (h : Heap) (o : Obj) : Option Res :=
  if iscobj o = false then some (.obj Nil)
  else (mustCObj o).bind fun p => (h p).map fun
    | .object _ => .sym "object"
    | .array _ => .sym "array"
    | .string _ => .sym "string"
    | .integer _ => .sym "integer"
    | .real _ => .sym "real"
    | .true => .sym "true"
    | .false => .sym "false"
    | .null => .sym "null"

/-- the common part of lib/json.c:56-65 and the other predicates -/
def jsonIs (test : Node → Bool) (h : Heap) (o : Obj) : Option Res :=
  if iscobj o = false then some (bool false)
  else (mustCObj o).bind fun p => (behind h p).map fun n => bool (n.any test)

/-- lib/json.c:56-65 -/
def jsonIsArray : Heap → Obj → Option Res := jsonIs fun | .array _ => true | _ => false
/-- lib/json.c:67-76 -/
def jsonIsObject : Heap → Obj → Option Res := jsonIs fun | .object _ => true | _ => false
/-- lib/json.c:78-87 -/
def jsonIsString : Heap → Obj → Option Res := jsonIs fun | .string _ => true | _ => false
/-- lib/json.c:112-121 -/
def jsonIsInteger : Heap → Obj → Option Res := jsonIs fun | .integer _ => true | _ => false
/-- lib/json.c:123-132 -/
def jsonIsReal : Heap → Obj → Option Res := jsonIs fun | .real _ => true | _ => false
/-- lib/json.c:134-143 -/
def jsonIsNull : Heap → Obj → Option Res := jsonIs fun | .null => true | _ => false
/-- lib/json.c:145-154 -/
def jsonIsTrue : Heap → Obj → Option Res := jsonIs fun | .true => true | _ => false
/-- lib/json.c:156-165 -/
def jsonIsFalse : Heap → Obj → Option Res := jsonIs fun | .false => true | _ => false

/-- lib/json.c:89-99 `jsonStringValue`. For a value that is no string, jansson gives NULL and the length 0; copying no bytes from
NULL is taken to be nothing. (The length is passed as an int; that it is below 2^31 is left out.) -/
def jsonStringValue (h : Heap) (o : Obj) : Option Res :=
  if iscobj o = false then some (.str [])
  else (mustCObj o).bind fun p => (behind h p).map fun
    | some (.string b) => .str b
    | _ => .str []

/-- lib/json.c:101-110 `jsonIntegerValue` (jansson gives 0 for other values) -/
def jsonIntegerValue (h : Heap) (o : Obj) : Option Res :=
  if iscobj o = false then (makeNumber 0).map .obj
  else (mustCObj o).bind fun p => (behind h p).bind fun n => (makeNumber (match n with | some (.integer v) => v | _ => 0)).map .obj

/-- lib/json.c:167-172 `jsonArraySize` (jansson gives 0 for other values) -/
def jsonArraySize (h : Heap) (o : Obj) : Option Res :=
  (mustCObj o).bind fun p => (behind h p).bind fun n => (makeNumber (match n with | some (.array l) => l.length | _ => 0)).map .obj

/-- the conversion of an int64_t to an int, as gcc does it -/
def toInt (v : Int) : Int := (BitVec.ofInt 32 v).toInt

/-- the conversion of an int to a size_t -/
def toSize (v : Int) : Nat := (BitVec.ofInt 64 v).toNat

/-- what jansson gives for a member or element, as a value -/
def orNil : Option Obj → Option Obj
  | none => some Nil
  | some p => makeCObj p

/-- lib/json.c:174-184 `jsonArrayGet` -/
def jsonArrayGet (h : Heap) (o i : Obj) : Option Obj :=
  (mustCObj o).bind fun p => (fixnum i).bind fun v => (behind h p).bind fun
    | some (.array l) => orNil l[toSize (toInt v)]?
    | _ => some Nil

/-- lib/json.c:186-191 `jsonObjectSize` -/
def jsonObjectSize (h : Heap) (o : Obj) : Option Res :=
  (mustCObj o).bind fun p => (behind h p).bind fun n => (makeNumber (match n with | some (.object m) => m.length | _ => 0)).map .obj

/-- lib/json.c:193-203 `jsonObjectGet`: the second argument is a string; jansson reads it up to the first NUL -/
def jsonObjectGet (h : Heap) (o : Obj) (key : Bytes) : Option Obj :=
  (mustCObj o).bind fun p => (behind h p).bind fun
    | some (.object m) => orNil (m.lookup (cname key))
    | _ => some Nil

end Cora.Json
