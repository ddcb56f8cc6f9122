import Verif.Model.Str
/-
Model of the hash trie of /repo/src/map.h.

Simplification: nodes are values of an inductive type; the C code walks pointers and writes the new
node through the pointer to the empty child where the walk ended, which is the same update.
-/
namespace Cora

/-- src/map.h:12-16 `struct HashTrie`: the key, the value and the four children; `nil` is NULL. -/
inductive Trie (K V : Type) where
  | nil
  | node (k : K) (v : V) (c0 c1 c2 c3 : Trie K V)

/-- src/map.h:28-40 `lookup` (and 42-45 `_map_get`): `h` is the hash still to be consumed. -/
def Trie.lookup {K V : Type} (eq : K → K → Bool) (key : K) : Trie K V → BitVec 64 → Option V
  | .nil, _ => none
  | .node k v c0 c1 c2 c3, h =>
    if eq key k then some v
    else
      match (h >>> 62).toNat with
      | 0 => c0.lookup eq key (h <<< 2)
      | 1 => c1.lookup eq key (h <<< 2)
      | 2 => c2.lookup eq key (h <<< 2)
      | _ => c3.lookup eq key (h <<< 2)

/-- src/map.h:47-62 `_map_set`: overwrite the value of a node whose key is equal (the old key stays),
otherwise hang a leaf at the child slot where the walk fell off. -/
def Trie.set {K V : Type} (eq : K → K → Bool) (key : K) (val : V) : Trie K V → BitVec 64 → Trie K V
  | .nil, _ => .node key val .nil .nil .nil .nil
  | .node k v c0 c1 c2 c3, h =>
    if eq key k then .node k val c0 c1 c2 c3
    else
      match (h >>> 62).toNat with
      | 0 => .node k v (c0.set eq key val (h <<< 2)) c1 c2 c3
      | 1 => .node k v c0 (c1.set eq key val (h <<< 2)) c2 c3
      | 2 => .node k v c0 c1 (c2.set eq key val (h <<< 2)) c3
      | _ => .node k v c0 c1 c2 (c3.set eq key val (h <<< 2))

/-- src/map.h:18-24, 64-69: a map with its hash and equality functions; `_map_init` makes it empty. -/
structure HMap (K V : Type) where
  root : Trie K V
  hash : K → BitVec 64
  eq : K → K → Bool

/-- src/map.h:64-69 `_map_init` -/
def HMap.init {K V : Type} (hash : K → BitVec 64) (eq : K → K → Bool) : HMap K V := ⟨.nil, hash, eq⟩
/-- src/map.h:73 `mapGet` -/
def HMap.get {K V : Type} (m : HMap K V) (k : K) : Option V := m.root.lookup m.eq k (m.hash k)
/-- src/map.h:74-79 `mapSet` -/
def HMap.put {K V : Type} (m : HMap K V) (k : K) (v : V) : HMap K V :=
  { m with root := m.root.set m.eq k v (m.hash k) }

/-- src/map.h:104-113 `fnv1a64`. -/
def fnv1a64 (s : Bytes) : BitVec 64 :=
  s.foldl (fun h c => (h ^^^ c.toBitVec.setWidth 64) * 1099511628211#64) 1469598103934665603#64

/-- a string key: its length is an `int` -/
abbrev Key := { b : Bytes // b.length < 2 ^ 31 }

/-- src/types.c:360-364 `strHashFunc` -/
def strHash (k : Key) : BitVec 64 := fnv1a64 k.1
/-- src/types.c:366-371 `strEQFunc` -/
def strEQ (a b : Key) : Bool := strCmp a.1 b.1 == 0

end Cora
