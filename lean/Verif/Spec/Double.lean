/-
Specification of IEEE-754 binary64 values, independent of the model.
A finite double is `± sig * 2^(k)`; since the smallest exponent is -1074 every finite double times
`2^1074` is an integer, and we use that integer as its exact value.
-/
namespace Spec

/-- Exact value of a binary64 bit pattern, times `2^1074`; `none` for infinities and NaNs. -/
def scaledValue (b : BitVec 64) : Option Int :=
  let n := b.toNat
  let e := n / 2 ^ 52 % 2 ^ 11
  let f := n % 2 ^ 52
  let mag : Nat := if e = 0 then f else (2 ^ 52 + f) * 2 ^ (e - 1)
  if e = 2047 then none
  else if 2 ^ 63 ≤ n then some (-(mag : Int)) else some (mag : Int)

/-- The integer `n` on the same scale. -/
def scaledInt (n : Int) : Int := n * 2 ^ 1074

/-- `b` is the exact double for the integer `n`. -/
def IsDoubleOf (b : BitVec 64) (n : Int) : Prop := scaledValue b = some (scaledInt n)

end Spec
