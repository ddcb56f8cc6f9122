import Verif.Model.Str
import Verif.Model.Reader
import Verif.Model.NaNBox
import Verif.Spec.Buffer
/-
Model of byte buffers (`bytes`, `make-buffer`, `bytes-length`, `string-length`, `memcpy`), `number->string`, `mod` and `randN`:
/repo/src/types.c, /repo/src/runtime.c, /repo/lib/string.c, /repo/lib/net.c, /repo/lib/hash-h.c, /repo/lib/rand.c.
-/
namespace Cora.Buffer

/-- src/types.c: an object of type `scmBytes`: the length, and the memory after the header, with the extra byte -/
structure Block where
  len : Nat
  mem : Bytes
  deriving DecidableEq, Repr

/-- the bytes in it -/
def Block.data (b : Block) : Bytes := b.mem.take b.len

/-- src/types.c:100-108 `makeBytes`: what is in the memory is not set. `none`: an object of 64 MB or more, header
of 12 bytes included (the assertion in src/gc.c:501), or a negative length (below -4 the assertion in src/gc.c:554 fails; from -4 to -1
the program gets an object that is not modelled). -/
def makeBytes (junk : Nat → Byte) (len : Int) : Option Block :=
  if 0 ≤ len ∧ len + 13 < 64 * 1024 * 1024 then some ⟨len.toNat, malloc junk (len.toNat + 1)⟩ else none

/-- src/types.c:124-131 `makeString`: a string literal, or what another function makes; the terminator is the extra byte -/
def makeString (junk : Nat → Byte) (s : Bytes) : Option Block := do
  let b ← makeBytes junk s.length
  let m ← write b.mem 0 s
  let m ← write m s.length [0]
  some ⟨b.len, m⟩

/-- src/runtime.c:240-246 `builtinBytes`, lib/net.c:240-245 `makeBuffer`: the length is converted to `int` -/
def builtinBytes (junk : Nat → Byte) (n : Int) : Option Block := makeBytes junk (toInt32 n)

/-- src/runtime.c:248-253 `builtinBytesLength`, lib/string.c:54-60 `bytesLength` -/
def bytesLength (b : Block) : Int := b.len

/-- lib/string.c:161-173 `bytesMemCpy` on the heap `h`: no range is checked. `none`: it reads or writes outside of an object, the size
is negative (`size_t` makes a large number of it), or the ranges overlap, for which C's `memcpy` is not defined. -/
def memcpy (h : List Block) (to : Nat) (off1 : Int) (frm : Nat) (off2 size : Int) : Option (List Block) := do
  let x ← h[to]?
  let y ← h[frm]?
  let bs ← readRange y.mem off2 size
  if 0 ≤ off1 ∧ ¬ (to = frm ∧ off1 < off2 + size ∧ off2 < off1 + size ∧ 0 < size) then
    let m ← write x.mem off1.toNat bs
    some (h.set to ⟨x.len, m⟩)
  else none

/-- a history: each call with what new memory has in it -/
def run : List Block → List ((Nat → Byte) × Spec.Buf.Op) → Option (List Block)
  | h, [] => some h
  | h, (junk, .new n) :: r => do run (h ++ [← builtinBytes junk n]) r
  | h, (junk, .str s) :: r => do run (h ++ [← makeString junk s]) r
  | h, (_, .copy to i frm j n) :: r => do run (← memcpy h to i frm j n) r

/-- lib/string.c:84-92 `numberToString`: `snprintf` writes at most 31 bytes into `tmp`, and answers how many there would be. `none`:
the assertion fails, or bytes are read that were not written. -/
def numberToString (n : Obj) : Option Bytes := do
  let v ← fixnum n
  let text := Reader.printInt v
  if text.length < 32 then some text else none

/-- lib/hash-h.c:64-70 `builtinMod`: C's `%`, not defined for 0 and when the quotient is not an `int64_t` -/
def builtinMod (x y : Obj) : Option Obj := do
  let a ← fixnum x
  let b ← fixnum y
  if b = 0 then none
  else
    let _ ← int64 (a.tdiv b)
    makeNumber (a.tmod b)

/-- lib/rand.c:4-9 `builtinN`; `val` is what `rand` gives, from 0 to 2^31 - 1 -/
def randN (val : Nat) (n : Obj) : Option Obj := do
  let b ← fixnum n
  if b = 0 then none else makeNumber ((val : Int).tmod b)

end Cora.Buffer
