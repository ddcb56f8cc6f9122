/-
What a captured computation is: the activations between a `try` and a `throw`, oldest first, and the stack segments their registers
live in. Nothing here refers to the objects the runtime keeps them in.
-/
namespace Spec.Capture

/-- one activation: which code continues (`fn`, `label`) and where its registers are: the words from `bp` up to `sp` -/
structure Frame where
  fn : BitVec 64
  label : BitVec 32
  bp : BitVec 64
  sp : BitVec 64
deriving DecidableEq

/-- the addresses of the registers of an activation: `bp`, `bp` + 8, ... below `sp` -/
def IsRegister (f : Frame) (a : Nat) : Prop := ∃ i : Nat, a = f.bp.toNat + 8 * i ∧ a < f.sp.toNat

/-- a computation's control state: its activations and its segments, oldest first -/
structure Control where
  frames : List Frame
  segs : List (BitVec 64)

end Spec.Capture
