import Verif.Spec.FinMap
/-
Model of /repo/lib/hash.cora. Keys are of any type with equality; `hash-to-number` (lib/hash-h.c:14-52) is
any function to integers. Sizes and hashes are mathematical integers here (exact up to 2^53, see C02).
`none` is a trap: an index out of range, a wrong type, a division by zero.
-/
open Spec
namespace Cora.Hash

/-- what a slot of the vector holds: nothing yet, the tag `hash`, a number, or a bucket (an association
list) -/
inductive Slot (K W : Type) where
  | undef
  | tag
  | num (n : Int)
  | bucket (l : List (K × W))

/-- the vector: tag, size, capacity, buckets -/
abbrev Table (K W : Type) := List (Slot K W)

variable {K W : Type} [DecidableEq K]

/-- `vector-ref`, see C16 -/
def ref (h : Table K W) (i : Int) : Option (Slot K W) := if 0 ≤ i then h[i.toNat]? else none
/-- `vector-set!`, see C16 -/
def put (h : Table K W) (i : Int) (s : Slot K W) : Option (Table K W) :=
  if 0 ≤ i ∧ i.toNat < h.length then some (h.set i.toNat s) else none

/-- lib/hash.cora:7-10 `assoc`: the pair, or `[]` -/
def assoc (key : K) : List (K × W) → Option (K × W)
  | [] => none
  | (x, y) :: more => if key = x then some (x, y) else assoc key more

/-- lib/hash.cora:12-15 `assoc-set` -/
def assocSet (key : K) (value : W) : List (K × W) → List (K × W)
  | [] => [(key, value)]
  | (k1, y) :: more => if key = k1 then (key, value) :: more else (k1, y) :: assocSet key value more

/-- lib/hash.cora:17-20 `assoc-rm`: the pattern `[[key . _] . more]` binds a new variable `key`, so it matches
any first entry; the third clause is never reached -/
def assocRm (_key : K) : List (K × W) → List (K × W)
  | [] => []
  | _ :: more => more

/-- lib/hash.cora:22-28 `hash-make`, for `n ≥ 0` (`vector` refuses a negative length and lengths above
8388604, see C16) -/
def make (n : Nat) : Table K W := .tag :: .num 0 :: .num n :: List.replicate n .undef

/-- lib/hash.cora:34-35 `hash-count` -/
def count (h : Table K W) : Option Int :=
  match ref h 1 with
  | some (.num c) => some c
  | _ => none

/-- lib/hash.cora:37-38 `capacity` -/
def capacity (h : Table K W) : Option Int :=
  match ref h 2 with
  | some (.num c) => some c
  | _ => none

/-- lib/hash-h.c:64-70 `builtinMod`: C's remainder, which has the sign of the dividend; a zero divisor traps -/
def mod (x y : Int) : Option Int := if y = 0 then none else some (x.tmod y)

/-- lib/hash.cora:43-45 `hash-bucket-get`: what is not a list counts as the empty list -/
def bucketGet (h : Table K W) (idx : Int) : Option (List (K × W)) :=
  match ref h (idx + 3) with
  | none => none
  | some (.bucket l) => some l
  | some _ => some []

/-- lib/hash.cora:47-48 `hash-bucket-set!` -/
def bucketSet (h : Table K W) (idx : Int) (l : List (K × W)) : Option (Table K W) := put h (idx + 3) (.bucket l)

/-- lib/hash.cora:50-53 `hash-get`: the pair `(key . value)`, or `[]` (here `none`) -/
def get (hash : K → Int) (h : Table K W) (key : K) : Option (Option (K × W)) := do
  let idx ← mod (hash key) (← capacity h)
  let bucket ← bucketGet h idx
  some (assoc key bucket)

/-- lib/hash.cora:55-64 `hash-set!` -/
def set (hash : K → Int) (h : Table K W) (key : K) (value : W) : Option (Table K W) := do
  let idx ← mod (hash key) (← capacity h)
  let old ← bucketGet h idx
  let h ← if (assoc key old).isNone then do put h 1 (.num ((← count h) + 1)) else some h
  bucketSet h idx (assocSet key value old)

/-- lib/hash.cora:66-74 `hash-del!` -/
def del (hash : K → Int) (h : Table K W) (key : K) : Option (Table K W) := do
  let idx ← mod (hash key) (← capacity h)
  let old ← bucketGet h idx
  if (assoc key old).isNone then some h
  else do
    let h ← bucketSet h idx (assocRm key old)
    put h 1 (.num ((← count h) - 1))

/-- one update -/
def step (hash : K → Int) (h : Table K W) : MapOp K W → Option (Table K W)
  | .set k v => set hash h k v
  | .del k => del hash h k

/-- a history -/
def run (hash : K → Int) (h : Table K W) : List (MapOp K W) → Option (Table K W)
  | [] => some h
  | o :: r => do run hash (← step hash h o) r

end Cora.Hash
