/-
What a hash function is good for, in a map that uses the bits of the hash two by two, from the top.
-/
namespace Spec.MapCost

/-- the first `n` bits are the same -/
def FirstBits (n : Nat) (a b : BitVec 64) : Prop := ∀ m < n, a.getMsbD m = b.getMsbD m

/-- different keys, different hashes -/
def NoCollision {K H : Type} (hash : K → H) : Prop := ∀ a b, hash a = hash b → a = b

/-- every value is the hash of some key -/
def AllUsed {K H : Type} (hash : K → H) : Prop := ∀ h, ∃ k, hash k = h

end Spec.MapCost
