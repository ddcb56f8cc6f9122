/-
Specifications about byte strings, independent of the model.
-/
namespace Spec

/-- `p` occurs in `s` at offset `i`. -/
def OccursAt (s p : List UInt8) (i : Nat) : Prop := ∃ a b, s = a ++ p ++ b ∧ a.length = i

/-- `p` occurs somewhere in `s`. -/
def Occurs (s p : List UInt8) : Prop := ∃ i, OccursAt s p i

/-- a byte read as a signed 8-bit integer -/
def signedByte (c : UInt8) : Int := if c < 128 then (c.toNat : Int) else (c.toNat : Int) - 256

/-- strict lexicographic order on byte strings, bytes compared as signed integers -/
inductive LexLt : List UInt8 → List UInt8 → Prop where
  | nil (y ys) : LexLt [] (y :: ys)
  | head {x y xs ys} : signedByte x < signedByte y → LexLt (x :: xs) (y :: ys)
  | tail {x xs ys} : LexLt xs ys → LexLt (x :: xs) (x :: ys)

/-- joining pieces with a separator -/
def join (sep : List UInt8) : List (List UInt8) → List UInt8
  | [] => []
  | [x] => x
  | x :: y :: r => x ++ sep ++ join sep (y :: r)

/-- an index as the caller means it: negative counts from the end -/
def resolve (len : Nat) (i : Int) : Int := if i < 0 then i + len else i

end Spec
