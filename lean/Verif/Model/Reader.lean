import Verif.Model.Symbols
import Verif.Spec.Sexp
/-
Model of the reader and printer, /repo/src/reader.c.

A `FILE *` is the list of bytes still to be read. `getc` takes the first byte (an `int`), `ungetc` puts one
back (`ungetc(EOF)` does nothing). Data are values of `Spec.Sexp`; the words representing them are the
subject of C01-C13. Where the C code keeps a character in a `char`, the byte 255 is indistinguishable from
EOF; this is modelled. The character classes are those of the "C" locale (the program never calls
`setlocale`).
-/
namespace Cora.Reader
open Spec (Sexp ascii)

/-- outcomes: a value, the rest of the input and whether `*errCode` was set; `exit(1)`; a write outside a
buffer; the recursion did not come to an end within the fuel -/
inductive Res (α : Type) where
  | ok (v : α) (rest : Bytes) (err : Bool)
  | exit
  | overflow
  | fuel
deriving DecidableEq, Repr

/-- sequencing; `*errCode` is never reset -/
def Res.bind {α β : Type} (r : Res α) (f : α → Bytes → Res β) : Res β :=
  match r with
  | .ok v t e =>
    match f v t with
    | .ok w t' e' => .ok w t' (e || e')
    | .exit => .exit
    | .overflow => .overflow
    | .fuel => .fuel
  | .exit => .exit
  | .overflow => .overflow
  | .fuel => .fuel

/-- `isspace` in the "C" locale -/
def isspace (c : Byte) : Bool := c == 32 || (9 ≤ c && c ≤ 13)
/-- `isdigit` -/
def isdigit (c : Byte) : Bool := 48 ≤ c && c ≤ 57

/-- src/reader.c:12-30 `isIdentifierChar` for a byte (for EOF it is false) -/
def isIdentifierChar (c : Byte) : Bool :=
  if c == 40 || c == 41 || c == 34 || c == 39 || c == 96 || c == 44 || c == 59 || c == 91 || c == 93 then false
  else !isspace c

/-- src/reader.c:32-48 `eatWhitespace`; the flag says that the inner loop (a comment) is running -/
def eatWhitespace : Bool → Bytes → Bytes
  | _, [] => []
  | false, c :: r => if isspace c then eatWhitespace false r else if c = 59 then eatWhitespace true r else c :: r
  | true, c :: r => if c = 10 then eatWhitespace false r else eatWhitespace true r

/-- src/reader.c:50-54 `peekFirstChar`: the character as a `char` (`none`: it compares equal to EOF) and the
rest -/
def peekFirstChar (t : Bytes) : Option Byte × Bytes :=
  match eatWhitespace false t with
  | [] => (none, [])
  | c :: r => if c = 255 then (none, r) else (some c, r)

/-- `ungetc` of a `char` -/
def ungetc (c : Option Byte) (r : Bytes) : Bytes :=
  match c with
  | some c => c :: r
  | none => r

/-- decimal digits as `strtol` reads them -/
def decimal (ds : Bytes) : Nat := ds.foldl (fun a c => a * 10 + (c.toNat - 48)) 0

/-- `atoi`, which the C library implements as `(int) strtol`: saturated to 64 bits, then truncated to 32 -/
def atoi (neg : Bool) (ds : Bytes) : Int :=
  let v : Int := decimal ds
  toInt32 (if neg then max (-v) (-(2:Int) ^ 63) else min v (2 ^ 63 - 1))

/-- src/reader.c:108-113, 115-117: the digits and what is left; a 255 byte counts as EOF and is lost -/
def takeDigits : Bytes → Bytes × Bytes
  | [] => ([], [])
  | c :: r =>
    if c = 255 then ([], r)
    else if isdigit c then
      let p := takeDigits r
      (c :: p.1, p.2)
    else ([], c :: r)

/-- src/reader.c:103-120 `readNumber`, `buf[30]` -/
def readNumber (t : Bytes) : Res Sexp :=
  let p := takeDigits t
  if p.1.length < 30 then .ok (.int (atoi false p.1)) p.2 false else .overflow

/-- src/reader.c:160-186: the string loop; `acc` is the buffer so far, reversed. `buffer[512]`, although
the check is against 1000. -/
def readString (acc : Bytes) : Bytes → Res Sexp
  | [] => .exit
  | 34 :: r => if acc.length < 512 then .ok (.str acc.reverse) r false else .overflow
  | 92 :: [] => .exit
  | 92 :: c :: r =>
    if acc.length < 999 then
      if acc.length < 512 then readString ((if c = 110 then 10 else c) :: acc) r else .overflow
    else .exit
  | c :: r =>
    if acc.length < 999 then
      if acc.length < 512 then readString (c :: acc) r else .overflow
    else .exit

/-- src/reader.c:191-201: the identifier characters and what is left -/
def takeIdent : Bytes → Bytes × Bytes
  | [] => ([], [])
  | c :: r =>
    if isIdentifierChar c then
      let p := takeIdent r
      (c :: p.1, p.2)
    else ([], c :: r)

/-- src/reader.c:204-222: what the buffer stands for -/
def symbolOrNumber (buf : Bytes) : Sexp :=
  if cname buf = ascii "true" then .bool true
  else if cname buf = ascii "false" then .bool false
  else
    match buf with
    | 45 :: ds => if ds.length > 0 ∧ ds.all isdigit = true then .int (atoi true ds) else .sym (cname buf)
    | _ => .sym (cname buf)

/-- src/reader.c:189-222, `buffer[512]` -/
def readSymbol (t : Bytes) : Res Sexp :=
  let p := takeIdent t
  if p.1.length < 512 then .ok (symbolOrNumber p.1) p.2 false else .overflow

/-- src/reader.c:136-140, 150-159 -/
def wrap (name : String) (o : Sexp) : Sexp := .cons (.sym (ascii name)) (.cons o .nil)

mutual
/-- src/reader.c:122-230 `sexpRead` -/
def sexpRead : Nat → Bytes → Res Sexp
  | 0, _ => .fuel
  | n + 1, t =>
    match eatWhitespace false t with
    | [] => .ok .nil [] true
    | c :: r =>
      if isdigit c then readNumber (c :: r)
      else if c = 39 then (sexpRead n r).bind (fun o r => .ok (wrap "quote" o) r false)
      else if c = 40 then readCons n r
      else if c = 91 then readListMacro n r
      else if c = 96 then (sexpRead n r).bind (fun o r => .ok (wrap "backquote" o) r false)
      else if c = 44 then (sexpRead n r).bind (fun o r => .ok (wrap "unquote" o) r false)
      else if c = 34 then readString [] r
      else if isIdentifierChar c then readSymbol (c :: r)
      else .exit
/-- src/reader.c:56-73 `readCons` -/
def readCons : Nat → Bytes → Res Sexp
  | 0, _ => .fuel
  | n + 1, t =>
    if t.head? = some 41 then .ok .nil t.tail false
    else
      (sexpRead n t).bind fun hd r =>
        let p := peekFirstChar r
        (readCons n (ungetc p.1 p.2)).bind fun tl r => .ok (.cons hd tl) r false
/-- src/reader.c:85-101 `readListMacro` -/
def readListMacro : Nat → Bytes → Res Sexp
  | 0, _ => .fuel
  | n + 1, t =>
    let p := peekFirstChar t
    (readListLoop n p.1 p.2 [] false).bind fun l r => .ok l r false
/-- src/reader.c:90-100: the loop, with the character just read, the items so far (reversed) and whether a
dot was seen -/
def readListLoop : Nat → Option Byte → Bytes → List Sexp → Bool → Res Sexp
  | 0, _, _, _, _ => .fuel
  | n + 1, b, r, acc, dot =>
    match b with
    | none => .ok (.cons (.sym (ascii (if dot then "list-rest" else "list"))) (Sexp.list acc.reverse)) r false
    | some 93 => .ok (.cons (.sym (ascii (if dot then "list-rest" else "list"))) (Sexp.list acc.reverse)) r false
    | some 46 =>
      let p := peekFirstChar r
      readListLoop n p.1 p.2 acc true
    | some c =>
      (sexpRead n (c :: r)).bind fun o r =>
        let p := peekFirstChar r
        readListLoop n p.1 p.2 (o :: acc) dot
end

/-- src/runtime.c:609-616: the loop of `builtinReadFileAsSexp`; the forms read, in order. The recursion of
the loop itself is on fuel too. -/
def readForms (fuel : Nat) : Nat → Bytes → Res (List Sexp)
  | 0, _ => .fuel
  | n + 1, t =>
    match sexpRead fuel t with
    | .ok _ r true => .ok [] r false
    | .ok v r false => (readForms fuel n r).bind fun vs r => .ok (v :: vs) r false
    | .exit => .exit
    | .overflow => .overflow
    | .fuel => .fuel

/-- src/runtime.c:617-622: several forms become `(begin ...)`, one is itself; `car` of the empty list
traps -/
def fileSexp : List Sexp → Option Sexp
  | [] => none
  | [v] => some v
  | vs => some (.cons (.sym (ascii "begin")) (Sexp.list vs))

/-- src/runtime.c:598-630 `builtinReadFileAsSexp` on a file that could be opened; `none`: no value is
returned -/
def readFile (n m : Nat) (t : Bytes) : Option Sexp :=
  match readForms n m t with
  | .ok vs _ _ => fileSexp vs
  | _ => none

/-! ### printing -/

/-- decimal digits of a number (`%lld`) -/
def decDigits (n : Nat) : Bytes :=
  if n < 10 then [UInt8.ofNat (48 + n)] else decDigits (n / 10) ++ [UInt8.ofNat (48 + n % 10)]

/-- `fprintf("%" PRId64)` -/
def printInt (n : Int) : Bytes := if n < 0 then 45 :: decDigits n.natAbs else decDigits n.natAbs

mutual
/-- src/reader.c:254-298 `printObj`. `none`: the assertion of `symbolStr` (src/types.c:176) on a name of 255
bytes or more. A string is printed up to its first NUL (`%s`). -/
def printObj : Sexp → Option Bytes
  | .int n => some (printInt n)
  | .cons a d => do
    -- src/reader.c:232-252 `printCons` with `start`
    let x ← printObj a
    let y ← printTail d
    some (40 :: x ++ y)
  | .sym n => if n.length + 1 < 256 then some (cname n) else none
  | .bool b => some (if b then ascii "true" else ascii "false")
  | .nil => some (ascii "()")
  | .str b => some (34 :: cname b ++ [34])
/-- src/reader.c:242-251 and the recursive call of `printCons` without `start` -/
def printTail : Sexp → Option Bytes
  | .nil => some [41]
  | .cons a d => do
    let x ← printObj a
    let y ← printTail d
    some (32 :: x ++ y)
  | .int n => some (32 :: 46 :: 32 :: printInt n ++ [41])
  | .sym n => if n.length + 1 < 256 then some (32 :: 46 :: 32 :: cname n ++ [41]) else none
  | .bool b => some (32 :: 46 :: 32 :: (if b then ascii "true" else ascii "false") ++ [41])
  | .str b => some (32 :: 46 :: 32 :: 34 :: cname b ++ [34, 41])
end

end Cora.Reader
