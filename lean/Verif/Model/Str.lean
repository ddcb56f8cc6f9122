/-
Model of /repo/src/str.c (string views and growable buffers) and of the byte-string builtins in
/repo/lib/string.c and /repo/src/runtime.c.

Simplifications: a `str` view is the list of bytes it addresses; lengths are natural numbers (the C
code uses `int`/`unsigned`, so the model is faithful for contents shorter than 2^31 bytes; where a C
conversion to `int` of a caller-supplied value can wrap, it is modelled).  `malloc` does not fail; the
bytes it returns are arbitrary (`junk`).  The source of a copy does not alias the destination buffer.
-/
namespace Cora

abbrev Byte := UInt8
abbrev Bytes := List Byte

/-- value of a C `char` (signed on the supported targets) -/
def charVal (c : Byte) : Int := if c.toNat < 128 then c.toNat else (c.toNat : Int) - 256

/-- C conversion of an integer to 32-bit `int` (two's complement wrap) -/
def toInt32 (x : Int) : Int := Int.bmod x (2 ^ 32)

/-! ### searching -/

/-- outcome of the inner `for` loop of `strStr` -/
inductive Inner where
  | past      -- src/str.c:47-49: `return -1`
  | mismatch  -- src/str.c:50-53: `pos++; break`
  | full      -- loop ran to the end, `i == needle.len`
deriving DecidableEq, Repr

/-- src/str.c:46-54: the inner loop of `strStr`, starting at `i`. -/
def strStrInner (h n : Bytes) (pos i : Nat) : Inner :=
  if hi : i < n.length then
    if pos + i ≥ h.length then .past
    else if h[pos + i]? ≠ some n[i] then .mismatch
    else strStrInner h n pos (i + 1)
  else .full
termination_by n.length - i

/-- src/str.c:44-59: the outer loop of `strStr`. -/
def strStrLoop (h n : Bytes) (pos : Nat) : Int :=
  if pos + n.length ≤ h.length then
    match strStrInner h n pos 0 with
    | .past => -1
    | .mismatch => strStrLoop h n (pos + 1)
    | .full => pos
  else -1
termination_by h.length + 1 - pos

/-- src/str.c:40-60 `strStr`. -/
def strStr (h n : Bytes) : Int := strStrLoop h n 0

/-- src/str.c:65-70: loop of `strChr`. -/
def strChrLoop (s : Bytes) (c : Byte) (i : Nat) : Int :=
  if h : i < s.length then (if s[i] = c then i else strChrLoop s c (i + 1)) else -1
termination_by s.length - i

/-- src/str.c:62-71 `strChr`. -/
def strChr (s : Bytes) (c : Byte) : Int := strChrLoop s c 0

/-- src/str.c:76-82: loop of `strRchr`; the argument is `pos + 1`, so `0` stands for `pos = -1`. -/
def strRchrLoop (s : Bytes) (c : Byte) : Nat → Int
  | 0 => -1
  | p + 1 => if s[p]? = some c then p else strRchrLoop s c p

/-- src/str.c:73-83 `strRchr`. -/
def strRchr (s : Bytes) (c : Byte) : Int := strRchrLoop s c s.length

/-! ### comparison -/

/-- src/str.c:87-95: the loop of `strCmp` on the remaining bytes; `l1`, `l2` are the full lengths, whose
`unsigned` difference is returned as an `int`. -/
def strCmpLoop (l1 l2 : Nat) : Bytes → Bytes → Int
  | x :: xs, y :: ys =>
    if charVal x > charVal y then 1
    else if charVal x < charVal y then -1
    else strCmpLoop l1 l2 xs ys
  | _, _ => toInt32 ((l1 : Int) - l2)

/-- src/str.c:85-96 `strCmp`. -/
def strCmp (a b : Bytes) : Int := strCmpLoop a.length b.length a b

/-! ### sub-strings -/

/-- src/str.c:98-110 `ptrByIdx`: offset from the start, or `none` for NULL. -/
def ptrByIdx (len : Nat) (idx : Int) : Option Int :=
  if idx ≥ 0 then (if idx ≤ len then some idx else none)
  else if idx + len ≥ 0 then some (len + idx) else none

/-- bytes `[i, i+n)` of `s`; `none` if any of them lies outside `s` (an out-of-bounds read) -/
def readRange (s : Bytes) (i : Int) (n : Int) : Option Bytes :=
  if 0 ≤ i ∧ 0 ≤ n ∧ i + n ≤ s.length then some ((s.drop i.toNat).take n.toNat) else none

/-- src/str.c:112-130 `strSub`. The outer `Option` is an out-of-bounds view. -/
def strSub (s : Bytes) (start stop : Int) : Option Bytes :=
  match ptrByIdx s.length start with
  | none => some []
  | some p1 =>
    match ptrByIdx s.length stop with
    | none => some []
    | some p2 => if p1 ≥ p2 then some [] else readRange s p1 (p2 - p1)

/-! ### buffers -/

/-- src/str.c:6-10 `struct _strBuf`: the allocated bytes (`cap` of them) and the length. -/
structure StrBuf where
  mem : Bytes
  len : Nat
deriving Repr, DecidableEq

/-- the `cap` field -/
def StrBuf.cap (b : StrBuf) : Nat := b.mem.length
/-- src/str.c:29-33 `toStr`. -/
def StrBuf.toStr (b : StrBuf) : Bytes := b.mem.take b.len

/-- what `malloc(n)` returns: `n` arbitrary bytes -/
def malloc (junk : Nat → Byte) (n : Nat) : Bytes := (List.range n).map junk

/-- a `memcpy` (or a store) of `bs` at offset `i`; `none` if it leaves the allocation -/
def write (m : Bytes) (i : Nat) (bs : Bytes) : Option Bytes :=
  if i + bs.length ≤ m.length then some (m.take i ++ bs ++ m.drop (i + bs.length)) else none

/-- src/str.c:12-21 `growCap`; `oldLen * 1.25` converted to `int`. -/
def growCap (n : Nat) : Nat := if n = 0 then 16 else if n < 1024 then n * 2 else n * 5 / 4

/-- src/str.c:155-163 `strNew`: `none` is the failed assertion `cap > 0`. -/
def strNew (junk : Nat → Byte) (cap : Nat) : Option StrBuf :=
  if cap > 0 then do
    let m ← write (malloc junk cap) 0 [0]
    pure ⟨m, 0⟩
  else none

/-- src/str.c:137-147 `fromBlk` with a non-NULL source. -/
def fromBlk (junk : Nat → Byte) (s : Bytes) : Option StrBuf := do
  let m ← write (malloc junk (s.length + 1)) 0 s
  let m ← write m s.length [0]
  pure ⟨m, s.length⟩

/-- src/str.c:176-188 `strCpy`. -/
def strCpy (junk : Nat → Byte) (to : StrBuf) (src : Bytes) : Option StrBuf := do
  let to ← if to.cap < src.length + 1 then strNew junk (src.length + 1) else some to
  let m ← write to.mem 0 src
  let m ← write m src.length [0]
  pure ⟨m, src.length⟩

/-- src/str.c:190-199 `strBufReserve`. -/
def strBufReserve (junk : Nat → Byte) (s : StrBuf) (cap : Nat) : Option StrBuf :=
  if s.cap ≥ cap then some s
  else do
    let tmp ← strNew junk cap
    strCpy junk tmp s.toStr

/-- src/str.c:201-208 `strCat`. -/
def strCat (junk : Nat → Byte) (to : StrBuf) (src : Bytes) : Option StrBuf := do
  let to ← strBufReserve junk to (to.len + src.length + 1)
  let m ← write to.mem to.len src
  let m ← write m (to.len + src.length) [0]
  pure ⟨m, to.len + src.length⟩

/-- src/str.c:210-219 `strAppend`. -/
def strAppend (junk : Nat → Byte) (to : StrBuf) (c : Byte) : Option StrBuf := do
  let to ← if to.len + 2 > to.cap then strBufReserve junk to (growCap (to.len + 1)) else some to
  let m ← write to.mem to.len [c]
  let m ← write m (to.len + 1) [0]
  pure ⟨m, to.len + 1⟩

/-- src/str.c:221-231 `strShrink` (for `n ≥ 0`). -/
def strShrink (to : StrBuf) (n : Nat) : Option StrBuf :=
  if n ≥ to.len then do
    let m ← write to.mem 0 [0]
    pure ⟨m, 0⟩
  else do
    let m ← write to.mem (to.len - n) [0]
    pure ⟨m, to.len - n⟩

/-- one public buffer operation -/
inductive BufOp where
  | append (c : Byte)
  | cat (s : Bytes)
  | cpy (s : Bytes)
  | shrink (n : Nat)
  | reserve (n : Nat)
deriving Repr, DecidableEq

/-- dispatch of one operation -/
def BufOp.run (junk : Nat → Byte) (b : StrBuf) : BufOp → Option StrBuf
  | .append c => strAppend junk b c
  | .cat s => strCat junk b s
  | .cpy s => strCpy junk b s
  | .shrink n => strShrink b n
  | .reserve n => strBufReserve junk b n

/-- a sequence of operations, each with its own garbage from `malloc` -/
def runOps (b : StrBuf) : List ((Nat → Byte) × BufOp) → Option StrBuf
  | [] => some b
  | (j, op) :: ops => do runOps (← op.run j b) ops

/-! ### byte-string builtins -/

/-- lib/string.c:10-31 `stringSlice`; `makeString` copies the addressed bytes (`none`: out-of-bounds
read).  The indices are converted to `int`. -/
def stringSlice (s : Bytes) (i j : Int) : Option Bytes :=
  let len : Int := s.length
  let beg := toInt32 i
  let beg := if beg < 0 then len + beg else beg
  let stop := toInt32 j
  let stop := if stop < 0 then len + stop else stop
  if beg < 0 ∨ stop > len ∨ stop < beg then some [] else readRange s beg (stop - beg)

/-- lib/string.c:44-49: loop of `stringHasPrefix`; `none`: out-of-bounds read. -/
def hasPrefixLoop (s p : Bytes) (i : Nat) : Option Bool :=
  if hi : i < p.length then
    match s[i]? with
    | none => none
    | some c => if p[i] ≠ c then some false else hasPrefixLoop s p (i + 1)
  else some true
termination_by p.length - i

/-- lib/string.c:33-52 `stringHasPrefix`. -/
def stringHasPrefix (s p : Bytes) : Option Bool :=
  if p.length > s.length then some false else hasPrefixLoop s p 0

/-- lib/string.c:62-71 `stringIndex`: no bounds check (`none`: out-of-bounds read). -/
def stringIndex (s : Bytes) (i : Int) : Option Bytes := readRange s (toInt32 i) 1

/-- lib/string.c:175-182 `bytesRef`: `idx` is unsigned, so a negative index fails the assertion. -/
def bytesRef (s : Bytes) (i : Int) : Option Int :=
  if 0 ≤ i ∧ i < s.length then (s[i.toNat]?).map charVal else none

/-- lib/string.c:94-119 `stringReplace`, through a buffer. `none`: a trap or an out-of-bounds access. -/
def stringReplace (junk : Nat → Byte) (raw frm to : Bytes) : Option Bytes := do
  let pos := strStr raw frm
  if pos < 0 then pure raw
  else
    let buf ← strNew junk (raw.length + to.length - frm.length + 1)
    let buf ← strCpy junk buf (← strSub raw 0 pos)
    let buf ← strCat junk buf to
    let buf ← strCat junk buf (← strSub raw (pos + frm.length) raw.length)
    pure buf.toStr

/-- lib/string.c:121-136 `stringContain`. -/
def stringContain (s p : Bytes) : Bool := if strStr s p < 0 then false else true

/-- lib/string.c:147-157: the loop of `stringSplit`, returning the pieces in order (the C code conses
them up and reverses). `fuel` bounds the number of iterations; `none` also when it runs out. -/
def stringSplitLoop (sep : Bytes) : Nat → Bytes → Option (List Bytes)
  | 0, _ => none
  | fuel + 1, s =>
    let pos := strStr s sep
    if pos > 0 then do
      let find ← strSub s 0 pos
      let rest ← strSub s (pos + sep.length) s.length
      let more ← stringSplitLoop sep fuel rest
      pure (find :: more)
    else pure [s]

/-- lib/string.c:138-159 `stringSplit`. Every iteration removes at least one byte, so `s.length + 1`
iterations always suffice (proved in the properties: the result is never `none`). -/
def stringSplit (s sep : Bytes) : Option (List Bytes) := stringSplitLoop sep (s.length + 1) s

/-- lib/string.c:184-194 `stringToList`. -/
def stringToList (s : Bytes) : List Int := s.map charVal

/-- src/runtime.c:632-646 `builtinStringAppend`. `none`: the assertion of `strNew` fails. -/
def builtinStringAppend (junk : Nat → Byte) (x y : Bytes) : Option Bytes := do
  let tmp ← strNew junk (x.length + y.length)
  let tmp ← strCpy junk tmp x
  let tmp ← strCat junk tmp y
  pure tmp.toStr

end Cora
