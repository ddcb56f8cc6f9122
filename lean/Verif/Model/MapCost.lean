import Verif.Model.Trie
/-
Model of /repo/src/map.h: what a lookup compares the key with; and the hash functions for integers.
-/
namespace Cora

/-- src/map.h:28-40 `lookup`, with the keys of the map for which `equals` is called, in order -/
def Trie.walk {K V : Type} (eq : K → K → Bool) (key : K) : Trie K V → BitVec 64 → Option V × List K
  | .nil, _ => (none, [])
  | .node k v c0 c1 c2 c3, h =>
    if eq key k then (some v, [k])
    else
      let r := match (h >>> 62).toNat with
        | 0 => c0.walk eq key (h <<< 2)
        | 1 => c1.walk eq key (h <<< 2)
        | 2 => c2.walk eq key (h <<< 2)
        | _ => c3.walk eq key (h <<< 2)
      (r.1, k :: r.2)

/-- src/map.h:73 `mapGet`, with the keys for which `equals` is called -/
def HMap.walk {K V : Type} (m : HMap K V) (k : K) : Option V × List K := m.root.walk m.eq k (m.hash k)

/-- src/map.h:83-91 `lowbias32` -/
def lowbias32 (x : BitVec 32) : BitVec 32 :=
  let x := x ^^^ (x >>> 16)
  let x := x * 0x7FEB352D#32
  let x := x ^^^ (x >>> 15)
  let x := x * 0x846CA68B#32
  x ^^^ (x >>> 16)

/-- src/map.h:93-101 `mix64` -/
def mix64 (x : BitVec 64) : BitVec 64 :=
  let x := x ^^^ (x >>> 30)
  let x := x * 0xBF58476D1CE4E5B9#64
  let x := x ^^^ (x >>> 27)
  let x := x * 0x94D049BB133111EB#64
  x ^^^ (x >>> 31)

end Cora
