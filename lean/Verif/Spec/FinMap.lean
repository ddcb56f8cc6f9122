/-
Finite maps given by a history of updates.
-/
namespace Spec

/-- an update of a finite map -/
inductive MapOp (K W : Type) where
  | set (k : K) (v : W)
  | del (k : K)

/-- the map after a history, starting from `m` -/
def mapAfter {K W : Type} [DecidableEq K] (m : K → Option W) : List (MapOp K W) → K → Option W
  | [] => m
  | .set k v :: r => mapAfter (fun x => if x = k then some v else m x) r
  | .del k :: r => mapAfter (fun x => if x = k then none else m x) r

/-- `n` is the number of keys the map has a value for -/
def HasSize {K W : Type} (m : K → Option W) (n : Int) : Prop :=
  ∃ l : List K, l.Nodup ∧ (∀ k, k ∈ l ↔ (m k).isSome) ∧ n = l.length

/-- the key an update is about -/
def MapOp.key {K W : Type} : MapOp K W → K
  | .set k _ => k
  | .del k => k

end Spec
