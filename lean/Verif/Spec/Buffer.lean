import Verif.Spec.Bytes
/-
Byte buffers as arrays, and decimal numerals. Independent of the model.
-/
namespace Spec.Buf

/-- what is known of a buffer: its bytes; `none` for a byte that nobody wrote -/
abbrev Known := List (Option UInt8)

/-- what a program does with buffers; a buffer is named by the number of buffers made before it -/
inductive Op where
  /-- a new buffer of `n` bytes: `(bytes n)`, `(make-buffer n)` -/
  | new (n : Nat)
  /-- a string -/
  | str (s : List UInt8)
  /-- `(memcpy to i from j n)` -/
  | copy (to i frm j n : Nat)

/-- `l` with the elements from `i` on replaced by those of `x` -/
def paste (l : Known) (i : Nat) (x : Known) : Known := l.take i ++ x ++ l.drop (i + x.length)

/-- arrays of bytes: a copy replaces the bytes from `i` to `i + n` in one by those from `j` to `j + n` in the other. `none`: one of the
ranges is not in its array, or they are in the same array and overlap. -/
def Op.run (a : List Known) : Op → Option (List Known)
  | .new n => some (a ++ [List.replicate n none])
  | .str s => some (a ++ [s.map some])
  | .copy to i frm j n =>
    match a[to]?, a[frm]? with
    | some x, some y =>
      if i + n ≤ x.length ∧ j + n ≤ y.length ∧ (to = frm → i + n ≤ j ∨ j + n ≤ i ∨ n = 0) then
        some (a.set to (paste x i ((y.drop j).take n)))
      else none
    | _, _ => none

/-- a history -/
def runAll : List Known → List Op → Option (List Known)
  | a, [] => some a
  | a, o :: r => (o.run a).bind fun a => runAll a r

/-- the value of a string of digits, most significant first, after `acc` -/
def digits : Nat → List UInt8 → Option Nat
  | acc, [] => some acc
  | acc, c :: r => if 48 ≤ c ∧ c ≤ 57 then digits (acc * 10 + (c.toNat - 48)) r else none

/-- the number that a decimal numeral denotes: digits, the first of which is not 0 unless it is the only one, after a minus sign if
the number is negative -/
def numeral : List UInt8 → Option Int
  | [] => none
  | [45] => none
  | 45 :: 48 :: _ => none
  | 45 :: r => (digits 0 r).map fun n : Nat => -(n : Int)
  | [48] => some 0
  | 48 :: _ => none
  | s => (digits 0 s).map fun n : Nat => (n : Int)

end Spec.Buf
