import Verif.Model.Json
/-
JSON documents, and what can be asked about one.
-/
open Cora Cora.Json
namespace Spec.JSON

/-- a document -/
inductive Doc where
  | object (m : List (Cora.Bytes × Doc))
  | array (l : List Doc)
  | string (b : Cora.Bytes)
  | integer (n : Int)
  | real (bits : BitVec 64)
  | bool (b : Bool)
  | null

/-- a step into a document -/
inductive Step where
  | nth (i : Int)
  | key (k : Cora.Bytes)

/-- one step: an element counted from 0, or the member with a key -/
def Doc.step : Doc → Step → Option Doc
  | .array l, .nth i => if 0 ≤ i then l[i.toNat]? else none
  | .object m, .key k => m.lookup k
  | _, _ => none

/-- the part of a document at the end of a path -/
def Doc.look (d : Doc) : List Step → Option Doc
  | [] => some d
  | s :: r => (d.step s).bind (·.look r)

/-- the name of the type -/
def Doc.type : Doc → String
  | .object _ => "object"
  | .array _ => "array"
  | .string _ => "string"
  | .integer _ => "integer"
  | .real _ => "real"
  | .bool b => if b then "true" else "false"
  | .null => "null"

/-- Documents as they are read: integers that doubles hold exactly, keys without NUL and different from each other, and sizes below
2^31. -/
inductive Plain : Doc → Prop where
  | object {m} : (∀ (i : Nat) k d, m[i]? = some (k, d) → Plain d) → (∀ k ∈ m.map (·.1), (0 : UInt8) ∉ k) → (m.map (·.1)).Nodup → m.length < 2 ^ 31 →
      Plain (.object m)
  | array {l} : (∀ (i : Nat) d, l[i]? = some d → Plain d) → l.length < 2 ^ 31 → Plain (.array l)
  | string (b) : Plain (.string b)
  | integer {n} : n.natAbs ≤ 2 ^ 53 → Plain (.integer n)
  | real (b) : Plain (.real b)
  | bool (b) : Plain (.bool b)
  | null : Plain .null

/-- Two documents are the same but for the order of the members and for the values of real numbers. -/
inductive Same : Doc → Doc → Prop where
  | object {m m'} : m.length = m'.length → (∀ k, (m.lookup k).isSome = (m'.lookup k).isSome) →
      (∀ k d d', m.lookup k = some d → m'.lookup k = some d' → Same d d') → Same (.object m) (.object m')
  | array {l l'} : l.length = l'.length → (∀ (i : Nat) d d', l[i]? = some d → l'[i]? = some d' → Same d d') → Same (.array l) (.array l')
  | string (b) : Same (.string b) (.string b)
  | integer (n) : Same (.integer n) (.integer n)
  | real (b b') : Same (.real b) (.real b')
  | bool (b) : Same (.bool b) (.bool b)
  | null : Same .null .null

/-- The value of jansson at an address is a document. -/
inductive Rep (h : Heap) : Obj → Doc → Prop where
  | object {a m m'} : h a = some (.object m) → m.map (·.1) = m'.map (·.1) →
      (∀ (i : Nat) k p k' d, m[i]? = some (k, p) → m'[i]? = some (k', d) → Rep h p d) → Rep h a (.object m')
  | array {a l l'} : h a = some (.array l) → l.length = l'.length → (∀ (i : Nat) p d, l[i]? = some p → l'[i]? = some d → Rep h p d) →
      Rep h a (.array l')
  | string {a b} : h a = some (.string b) → Rep h a (.string b)
  | integer {a n} : h a = some (.integer n) → Rep h a (.integer n)
  | real {a b} : h a = some (.real b) → Rep h a (.real b)
  | true {a} : h a = some .true → Rep h a (.bool true)
  | false {a} : h a = some .false → Rep h a (.bool false)
  | null {a} : h a = some .null → Rep h a .null

/-- where `malloc` puts things on the machines the program is for -/
def Placed (h : Heap) : Prop := ∀ p n, h p = some n → p ≠ 0 ∧ p.toNat < 2 ^ 48 ∧ p.toNat % 8 = 0

/-- A value of the language that stands for a document. -/
def Stands (h : Heap) (o : Obj) (d : Doc) : Prop := ∃ a, makeCObj a = some o ∧ Rep h a d

/-- a step with `json-array-get` or `json-object-get` -/
def into (h : Heap) (o : Obj) : Step → Option Obj
  | .nth i => (makeNumber i).bind (jsonArrayGet h o)
  | .key k => jsonObjectGet h o k

/-- steps, until one gives `()` -/
def walk (h : Heap) (o : Obj) : List Step → Option Obj
  | [] => some o
  | s :: r => (into h o s).bind fun o' => if o' = Nil then some Nil else walk h o' r

/-- the functions of the library that answer something about a value -/
def questions : List (Heap → Obj → Option Res) :=
  [jsonTypeOf, jsonIsArray, jsonIsObject, jsonIsInteger, jsonIntegerValue, jsonIsReal, jsonIsString, jsonStringValue, jsonIsNull,
    jsonIsTrue, jsonIsFalse, jsonArraySize, jsonObjectSize]

/-- what a program finds out: it walks into the document and asks -/
def ask (h : Heap) (o : Obj) (path : List Step) (q : Heap → Obj → Option Res) : Option Res :=
  (walk h o path).bind fun o' => if o' = Nil then some (.obj Nil) else q h o'

/-- paths with indices that an int holds and keys without NUL -/
def GoodStep : Step → Prop
  | .nth i => -(2 : Int) ^ 31 ≤ i ∧ i < 2 ^ 31
  | .key k => (0 : UInt8) ∉ k

/-- `h'` has all that `h` has -/
def Grows (h h' : Heap) : Prop := ∀ p n, h p = some n → h' p = some n

/-- lib/json.c:6-17 `jsonLoadFile`, with the files on the disk. The parser of jansson is a parameter; the name of the file ends at its first
NUL. A file that is not there or is no document gives `()`; otherwise new values of jansson are made. -/
inductive LoadFile (parse : Cora.Bytes → Option Doc) (disk : Cora.Bytes → Option Cora.Bytes) (path : Cora.Bytes) : Heap → Heap → Obj → Prop where
  | bad (h) : (disk (cname path)).bind parse = none → LoadFile parse disk path h h Nil
  | ok {h h' o d} : (disk (cname path)).bind parse = some d → Grows h h' → Placed h' → Stands h' o d → LoadFile parse disk path h h' o

/-- The files that a program has loaded so far: their texts, if there were any, and the results. Nothing else changes the values: no function of the library
frees or changes one (json_decref is not called anywhere). -/
inductive Session (parse : Cora.Bytes → Option Doc) : List (Option Cora.Bytes × Obj) → Heap → Prop where
  | start : Session parse [] fun _ => none
  | load {l h h' o} (disk : Cora.Bytes → Option Cora.Bytes) (path : Cora.Bytes) : Session parse l h → LoadFile parse disk path h h' o →
      Session parse (l ++ [(disk (cname path), o)]) h'

end Spec.JSON
