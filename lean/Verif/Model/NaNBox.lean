/-
Model of cora's value representation: NaN-boxed 64-bit words.
Sources: /repo/src/gc.h, /repo/src/types.h, /repo/src/types.c, /repo/src/runtime.c.
-/
namespace Cora

/-- `Obj` is `uintptr_t` (64 bit). Models src/gc.h:66 (`typedef uintptr_t Obj`). -/
abbrev Obj := BitVec 64

/-- src/gc.h:69 `OBJ_MASK`. -/
def OBJ_MASK : Obj := 0x7FF8000000000000#64
/-- src/types.h:34 `MASK`. -/
def MASK : Obj := 0x7FFF000000000000#64

/-- src/gc.h:71 `ptr(o)`: the low 48 bits. -/
def ptrOf (o : Obj) : Obj := o &&& ((1#64 <<< 48) - 1#64)
/-- src/gc.h:72 `tag(o)`. -/
def tagOf (o : Obj) : Obj := (o >>> 48) &&& 7#64

/-- src/gc.h:74-82: the tag enumeration. -/
def TAG_IMMED : BitVec 8 := 1
@[inherit_doc TAG_IMMED] def TAG_COBJ : BitVec 8 := 2
@[inherit_doc TAG_IMMED] def TAG_SYMBOL : BitVec 8 := 3
@[inherit_doc TAG_IMMED] def TAG_BYTES : BitVec 8 := 4
@[inherit_doc TAG_IMMED] def TAG_CONS : BitVec 8 := 5
@[inherit_doc TAG_IMMED] def TAG_NATIVE : BitVec 8 := 6
@[inherit_doc TAG_IMMED] def TAG_PTR : BitVec 8 := 7

/-- src/gc.h:84 `isobj(x)`. -/
def isobj (x : Obj) : Bool := (x &&& OBJ_MASK) == OBJ_MASK
/-- src/types.h:18 `isNumber(x)`. -/
def isNumber (x : Obj) : Bool := (x &&& OBJ_MASK) != OBJ_MASK
/-- src/gc.h:86 `isScmHead(o)`. -/
def isScmHead (o : Obj) : Bool := isobj o && decide (4 ≤ (tagOf o).toNat)

/-- src/types.h:27-32 `makeNaNPtr`. `none` is the failed assertion `(ptr >> 48) == 0`. -/
def makeNaNPtr (p : Obj) (tag : BitVec 8) : Option Obj :=
  if p >>> 48 = 0 then some (((tag.setWidth 64) <<< 48) ||| OBJ_MASK ||| p) else none

/-- the comparison shared by src/types.h:42,46,47 -/
def hasTag (t : BitVec 8) (v : Obj) : Bool := (v &&& MASK) == (((t.setWidth 64) <<< 48) ||| OBJ_MASK)
/-- src/types.h:42 -/
def iscobj : Obj → Bool := hasTag TAG_COBJ
/-- src/types.h:46 -/
def isBytes : Obj → Bool := hasTag TAG_BYTES
/-- src/types.h:47 -/
def iscons : Obj → Bool := hasTag TAG_CONS
/-- src/types.h:43-45 restricted to the interned case (`tag(v) == TAG_SYMBOL`); the gensym case
dereferences the header of a TAG_PTR object, and the header's type byte is passed in as
`headIsSymbol`. -/
def issymbol (headIsSymbol : Obj → Bool) (v : Obj) : Bool :=
  isobj v && ((tagOf v == TAG_SYMBOL.setWidth 64) || (tagOf v == TAG_PTR.setWidth 64 && headIsSymbol (ptrOf v)))

/-- src/types.c:14-17: the immediates. -/
def immed (n : Obj) : Obj := (((TAG_IMMED.setWidth 64) <<< 48) ||| OBJ_MASK) ||| n
@[inherit_doc immed] def Undef : Obj := immed 0
@[inherit_doc immed] def Nil : Obj := immed 1
@[inherit_doc immed] def True' : Obj := immed 2
@[inherit_doc immed] def False' : Obj := immed 3

/-- src/types.h:48 -/
def isboolean (x : Obj) : Bool := x == True' || x == False'

/-! ### IEEE-754 binary64, as used by the C conversions `(double)v` and `(int64_t)d`

The C code relies on the compiler's conversions between `int64_t` and `double`.  They are modelled
here as the IEEE-754 round-to-nearest, ties-to-even conversion (the default mode, which the program
never changes), on the bit pattern. -/

/-- Bits of the double nearest to a positive integer `m` (ties to even); models the conversion
`(double)v` in src/types.h:87 for magnitude `m`.  `q` keeps 53 significant bits; the carry of
rounding up into the exponent field is the usual IEEE trick (adding one to the whole pattern). -/
def encodeMag (m : Nat) : Nat :=
  if m = 0 then 0 else
  let e := Nat.log2 m
  if e ≤ 52 then (1023 + e) * 2 ^ 52 + (m * 2 ^ (52 - e) - 2 ^ 52)
  else
    let s := e - 52
    let q := m / 2 ^ s
    let r := m % 2 ^ s
    let up := 2 * r > 2 ^ s ∨ (2 * r = 2 ^ s ∧ q % 2 = 1)
    (1023 + e) * 2 ^ 52 + (q - 2 ^ 52) + (if up then 1 else 0)

/-- src/types.h:87 `(double)v`, reinterpreted as its bits (src/types.h:88). -/
def doubleOfInt (v : Int) : Obj :=
  BitVec.ofNat 64 ((if v < 0 then 2 ^ 63 else 0) + encodeMag v.natAbs)

/-- int64 range -/
def inInt64 (v : Int) : Bool := decide (-(2:Int) ^ 63 ≤ v) && decide (v < (2:Int) ^ 63)

/-- src/types.h:86-92 `makeNumber`. `none` is the failed assertion; the argument is assumed to be an
`int64_t` value. -/
def makeNumber (v : Int) : Option Obj :=
  let f := doubleOfInt v
  if isNumber f then some f else none

/-- biased exponent field of a double -/
def expField (o : Obj) : Nat := o.toNat / 2 ^ 52 % 2 ^ 11
/-- fraction field of a double -/
def fracField (o : Obj) : Nat := o.toNat % 2 ^ 52
/-- sign bit of a double -/
def signBit (o : Obj) : Bool := decide (2 ^ 63 ≤ o.toNat)

/-- src/types.h:19 `v == trunc(v)` on doubles: zero, every value of exponent at least 52, the
infinities, and the smaller ones with no fractional bits.  NaN compares unequal to itself. -/
def isIntegral (o : Obj) : Bool :=
  let e := expField o
  let f := fracField o
  if e = 2047 then f == 0
  else if e < 1023 then e == 0 && f == 0
  else if 1075 ≤ e then true
  else (2 ^ 52 + f) % 2 ^ (1075 - e) == 0

/-- src/types.h:19 `isfixnum`. -/
def isfixnum (o : Obj) : Bool := isNumber o && isIntegral o

/-- magnitude of `trunc(d)` for a finite double -/
def truncMag (o : Obj) : Nat :=
  let e := expField o
  let f := fracField o
  if e < 1023 then 0
  else if 1075 ≤ e then (2 ^ 52 + f) * 2 ^ (e - 1075)
  else (2 ^ 52 + f) / 2 ^ (1075 - e)

/-- src/types.h:21-25 `fixnum`: `none` for the failed assertion, and for infinities and magnitudes
outside int64, where the C conversion is undefined. -/
def fixnum (o : Obj) : Option Int :=
  if isfixnum o && expField o != 2047 then
    let v : Int := if signBit o then -(truncMag o : Int) else truncMag o
    if inInt64 v then some v else none
  else none

/-- int64 arithmetic: overflow is undefined behaviour (`none`). -/
def int64 (v : Int) : Option Int := if inInt64 v then some v else none

/-- src/types.h:104 -/
def PRIM_ADD (x y : Obj) : Option Obj := do
  let a ← fixnum x; let b ← fixnum y; let r ← int64 (a + b); makeNumber r
/-- src/types.h:105 -/
def PRIM_SUB (x y : Obj) : Option Obj := do
  let a ← fixnum x; let b ← fixnum y; let r ← int64 (a - b); makeNumber r
/-- src/types.h:106 -/
def PRIM_MUL (x y : Obj) : Option Obj := do
  let a ← fixnum x; let b ← fixnum y; let r ← int64 (a * b); makeNumber r
/-- src/types.h:100 -/
def PRIM_GT (x y : Obj) : Option Obj := do
  let a ← fixnum x; let b ← fixnum y; pure (if a > b then True' else False')
/-- src/types.h:101 -/
def PRIM_LT (x y : Obj) : Option Obj := do
  let a ← fixnum x; let b ← fixnum y; pure (if a < b then True' else False')

/-- src/runtime.c:855-863 `primDiv`, the function `/` compiles to (init.cora:376): the *bit patterns*
are divided, as unsigned 64-bit words, and the quotient is passed to `makeNumber(int64_t)`.
`none`: failed assertion or division by the zero word. -/
def primDiv (x y : Obj) : Option Obj :=
  if isfixnum x && isfixnum y then
    if y = 0 then none else makeNumber (x / y).toInt
  else none

/-- src/runtime.c:880-889 `primNot`. -/
def primNot (x : Obj) : Option Obj :=
  if x = True' then some False' else if x = False' then some True' else none

end Cora
