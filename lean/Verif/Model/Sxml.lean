import Verif.Model.NaNBox
import Verif.Model.Str
import Verif.Model.Reader
/-
Model of /repo/lib/sxml.cora. Data are S-expressions (`Spec.Sexp`). `none` is a trap: a failed assertion, an
access outside an allocation, no matching clause.
-/
open Spec
namespace Cora.Sxml

/-- the two-slot vector of lib/sxml.cora:7-13: the bytes allocated and the number used -/
structure Buf where
  data : Bytes
  size : Nat

/-- `(bytes n)`, src/runtime.c:241-246 and src/types.c:101-108: `n` arbitrary bytes; sizes are `int` (with 24
bytes of header and one spare byte added) -/
def bytes (junk : Nat → Nat → Byte) (n : Int) : Option Bytes :=
  if 0 ≤ n ∧ n < 2 ^ 31 - 64 then some (malloc (junk n.toNat) n.toNat) else none

/-- lib/sxml.cora:7-13 `make-buffer` -/
def makeBuffer (junk : Nat → Nat → Byte) : Option Buf := (bytes junk 16).map (⟨·, 0⟩)

/-- lib/sxml.cora:28-31 `next-size`; `/` is the division of C03 -/
def nextSize (size : Nat) : Option Int :=
  if size < 1024 then some (size * 2)
  else do
    let q ← fixnum (← primDiv (← makeNumber size) (← makeNumber 2))
    some (size + q)

/-- lib/sxml.cora:33-44 `buffer-append`; `memcpy` (lib/string.c:161-173) does not check bounds, so a copy that
leaves the allocation is `none` -/
def bufferAppend (junk : Nat → Nat → Byte) (buf : Buf) (str : Bytes) : Option Buf := do
  let newSize := buf.size + str.length
  let buf ← if newSize > buf.data.length then do
      let newData ← bytes junk (← nextSize newSize)
      let old ← readRange buf.data 0 buf.size
      let newData ← write newData 0 old
      some ⟨newData, buf.size⟩
    else some buf
  let data ← write buf.data buf.size str
  some ⟨data, newSize⟩

/-- lib/sxml.cora:24-26 `buffer->string` -/
def bufferToString (buf : Buf) : Option Bytes := stringSlice buf.data 0 buf.size

/-- lib/sxml.cora:56-63: one character. `byte-ref` gives a signed number. -/
def escapeChar (str : Bytes) (i : Nat) : Option Bytes := do
  let c ← bytesRef str i
  if c = 34 then some [38, 113, 117, 111, 116, 59]
  else if c = 38 then some [38, 97, 109, 112, 59]
  else if c = 92 then some [38, 97, 112, 111, 115, 59]
  else if c = 60 then some [38, 108, 116, 59]
  else if c = 62 then some [38, 103, 116, 59]
  else stringIndex str i

/-- lib/sxml.cora:51-65 `string->escaped-xml` -/
def escapedXml (junk : Nat → Nat → Byte) (str : Bytes) (i : Nat) (buf : Buf) : Option Buf :=
  if i < str.length then do
    let buf ← bufferAppend junk buf (← escapeChar str i)
    escapedXml junk str (i + 1) buf
  else some buf
termination_by str.length - i

/-- lib/sxml.cora:67-70 `attribute-value->xml`; `number->string` is lib/string.c:84-92 -/
def attributeValue (junk : Nat → Nat → Byte) (val : Sexp) (buf : Buf) : Option Buf :=
  match val with
  | .str s => escapedXml junk s 0 buf
  | .int n => bufferAppend junk buf (Reader.printInt n)
  | _ => none

/-- lib/sxml.cora:73-83: one attribute -/
def attribute1 (junk : Nat → Nat → Byte) (attr : Sexp) (buf : Buf) : Option Buf :=
  match attr with
  | .sym n => do bufferAppend junk (← bufferAppend junk buf [32]) n
  | .cons (.sym n) (.cons v _) => do
    let buf ← bufferAppend junk buf [32]
    let buf ← bufferAppend junk buf n
    let buf ← bufferAppend junk buf [61, 34]
    let buf ← attributeValue junk v buf
    bufferAppend junk buf [34]
  | _ => none

/-- lib/sxml.cora:72-83 `attribute->xml` (`for-each`, see C41) -/
def attributes (junk : Nat → Nat → Byte) : Sexp → Buf → Option Buf
  | .nil, buf => some buf
  | .cons a r, buf => do attributes junk r (← attribute1 junk a buf)
  | _, _ => none

mutual
/-- lib/sxml.cora:85-104 `element->xml` and `sxml->xml-h` -/
def xmlH (junk : Nat → Nat → Byte) : Sexp → Buf → Option Buf
  | .cons (.sym tag) (.cons (.cons (.sym [64]) attrs) body), buf => do
    let buf ← bufferAppend junk buf [60]
    let buf ← bufferAppend junk buf tag
    let buf ← attributes junk attrs buf
    if body = .nil then bufferAppend junk buf [32, 47, 62]
    else do
      let buf ← bufferAppend junk buf [62]
      let buf ← forEachH junk body buf
      let buf ← bufferAppend junk buf [60, 47]
      let buf ← bufferAppend junk buf tag
      bufferAppend junk buf [62]
  | .cons (.sym tag) body, buf => do
    let buf ← bufferAppend junk buf [60]
    let buf ← bufferAppend junk buf tag
    if body = .nil then bufferAppend junk buf [32, 47, 62]
    else do
      let buf ← bufferAppend junk buf [62]
      let buf ← forEachH junk body buf
      let buf ← bufferAppend junk buf [60, 47]
      let buf ← bufferAppend junk buf tag
      bufferAppend junk buf [62]
  | .str s, buf => escapedXml junk s 0 buf
  | .nil, buf => some buf
  | .cons c more, buf => do xmlH junk more (← xmlH junk c buf)
  | _, _ => none
/-- `(for-each (lambda (v) (sxml->xml-h buf v)) body)`, lib/sxml.cora:94 -/
def forEachH (junk : Nat → Nat → Byte) : Sexp → Buf → Option Buf
  | .nil, buf => some buf
  | .cons v r, buf => do forEachH junk r (← xmlH junk v buf)
  | _, _ => none
end

/-- lib/sxml.cora:106-110 `sxml->xml` -/
def xml (junk : Nat → Nat → Byte) (sx : Sexp) : Option Bytes := do
  bufferToString (← xmlH junk sx (← makeBuffer junk))

end Cora.Sxml
