import Verif.Model.Str
import Verif.Model.Reader
/-
Model of /repo/lib/toc/internal.c: how the compiler writes names and string constants into C source.
-/
namespace Cora

/-- the bytes a C function sees behind a `char *`: everything before the first NUL -/
def upToNul (s : Bytes) : Bytes := s.takeWhile (· ≠ 0)

/-- `fprintf(out, "%d", *p)` for a (signed) `char`, lib/toc/internal.c:33 -/
def printChar (c : Byte) : Bytes :=
  if c.toNat < 128 then Reader.decDigits c.toNat else 45 :: Reader.decDigits (256 - c.toNat)

/-- lib/toc/internal.c:27-34: one character of a name -/
def symChar (c : Byte) : Bytes :=
  if (97 ≤ c.toNat ∧ c.toNat ≤ 122) ∨ (65 ≤ c.toNat ∧ c.toNat ≤ 90) ∨ (48 ≤ c.toNat ∧ c.toNat ≤ 57) then [c]
  else if c = 95 then [95, 95]
  else 95 :: printChar c

/-- lib/toc/internal.c:15-36 `builtinGenerateSym`: what is written for the symbol with the given name.
`none`: `symbolStr` refuses names of 255 bytes and more (src/types.c:176). -/
def generateSym (name : Bytes) : Option Bytes :=
  if name.length + 1 < 256 then
    let s := upToNul name
    let pre : Bytes := match s with
      | c :: _ => if 48 ≤ c.toNat ∧ c.toNat ≤ 57 then [118] else []
      | [] => []
    some (pre ++ s.flatMap symChar)
  else none

/-- lib/toc/internal.c:60-76: one character of a string constant -/
def escapeStep (junk : Nat → Byte) (dst : StrBuf) (c : Byte) : Option StrBuf :=
  if c = 34 then do strAppend junk (← strAppend junk dst 92) 34
  else if c = 10 then do strAppend junk (← strAppend junk dst 92) 110
  else if c = 9 then do strAppend junk (← strAppend junk dst 92) 116
  else strAppend junk dst c

/-- lib/toc/internal.c:47-80 `builtinEscapeStr` -/
def escapeStr (junk : Nat → Byte) (s : Bytes) : Option Bytes :=
  if s.length = 0 then some s
  else do
    let dst ← strNew junk s.length
    let dst ← s.foldlM (escapeStep junk) dst
    some dst.toStr

/-- lib/toc/internal.c:5-13 `builtinGenerateStr`: `fprintf(out, "%s", s.str)` -/
def generateStr (s : Bytes) : Bytes := upToNul s

/-- lib/toc.cora:330-333: the text written between the quotes of `makeCString(co->gc, "...")` -/
def constText (junk : Nat → Byte) (s : Bytes) : Option Bytes := (escapeStr junk s).map generateStr

/-- src/types.c:134-136 `makeCString`: the string made from the bytes `b` of a literal (the compiler adds a
NUL) -/
def makeCString (b : Bytes) : Bytes := upToNul b

end Cora
