/-
Names that look like those of generated symbols.
-/
namespace Spec.GenName

/-- the letter x and 19 digits -/
def LooksGenerated (s : List UInt8) : Prop := ∃ r, s = 120 :: r ∧ r.length = 19 ∧ ∀ c ∈ r, 48 ≤ c.toNat ∧ c.toNat ≤ 57

end Spec.GenName
