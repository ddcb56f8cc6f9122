import Verif.Model.Symbols
/-
Interning from several threads: the table of symbols is shared by the machines of all threads (/repo/src/types.c) and there is no lock ("TODO:
lock!", src/types.c:156). `intern` is not one step here but three: look the name up, find the place for a new node, link the node; the steps of
different threads can interleave. (That these steps are not atomic themselves is left out.)
-/
namespace Cora

/-- src/map.h:28-40 `lookup` with `forUpdate`, for a key that is not there: the way to the empty slot where the walk ends -/
def Trie.slot {K V : Type} : Trie K V → BitVec 64 → List Nat
  | .nil, _ => []
  | .node _ _ c0 c1 c2 c3, h =>
    match (h >>> 62).toNat with
    | 0 => 0 :: c0.slot (h <<< 2)
    | 1 => 1 :: c1.slot (h <<< 2)
    | 2 => 2 :: c2.slot (h <<< 2)
    | _ => 3 :: c3.slot (h <<< 2)

/-- src/map.h:60 `*forUpdate = node`: what was in the slot is gone -/
def Trie.link {K V : Type} : Trie K V → Trie K V → List Nat → Trie K V
  | .node k v c0 c1 c2 c3, new, d :: path =>
    match d with
    | 0 => .node k v (c0.link new path) c1 c2 c3
    | 1 => .node k v c0 (c1.link new path) c2 c3
    | 2 => .node k v c0 c1 (c2.link new path) c3
    | _ => .node k v c0 c1 c2 (c3.link new path)
  | _, new, _ => new

namespace Threads

/-- where a thread is inside of `intern` -/
inductive Where where
  | outside
  /-- src/types.c:160: the name is not there -/
  | missed (k : Key)
  /-- src/map.h:49-59: the new name is at `p`; the empty slot for the node, or `none` when by now the name is there -/
  | placed (k : Key) (p : Obj) (slot : Option (List Nat))

/-- a call of `intern` that has returned -/
structure Interned where
  thread : Nat
  name : Key
  sym : Obj

structure Shared where
  table : HMap Key Obj
  threads : Nat → Where
  results : List Interned

inductive Act where
  /-- thread `t` calls `intern` -/
  | look (t : Nat) (s : Key)
  /-- it goes on, with the address `malloc` gives it for the name -/
  | place (t : Nat) (p : Obj)
  | link (t : Nat)
  /-- a further machine is made (`coraInit`, which `new-proc` calls in the new thread) -/
  | init

def Shared.move (s : Shared) (t : Nat) (l : Where) : Shared := { s with threads := fun u => if u = t then l else s.threads u }
def Shared.return (s : Shared) (t : Nat) (k : Key) (o : Obj) : Shared :=
  { s.move t .outside with results := ⟨t, k, o⟩ :: s.results }

/-- src/types.c:154-168 `intern` with src/map.h:47-62 `_map_set`; src/types.c:373-381 `typesInit` with src/map.h:64-69 `_map_init`,
called by src/runtime.c:1062-1064 `coraInit` (lib/parallel/internal.c:11-14 `startRoutine`). `none`: not a step of this thread, or the assertion of `makeNaNPtr` fails. -/
def Shared.act (s : Shared) : Act → Option Shared
  | .look t name => -- types.c:158-160, 167
    match s.threads t with
    | .outside =>
      match s.table.get (ckey name) with
      | some p => (makeNaNPtr p TAG_SYMBOL).map fun o => s.return t (ckey name) o
      | none => some (s.move t (.missed (ckey name)))
    | _ => none
  | .place t p => -- types.c:161-163, map.h:49-59
    match s.threads t with
    | .missed k =>
      some (s.move t (.placed k p (match s.table.get k with | some _ => none | none => some (s.table.root.slot (s.table.hash k)))))
    | _ => none
  | .link t => -- map.h:52, 60, types.c:164
    match s.threads t with
    | .placed k p none =>
      (makeNaNPtr p TAG_SYMBOL).map fun o => { s with table := s.table.put k p }.return t k o
    | .placed k p (some slot) =>
      (makeNaNPtr p TAG_SYMBOL).map fun o =>
        { s with table := { s.table with root := s.table.root.link (.node k p .nil .nil .nil .nil) slot } }.return t k o
    | _ => none
  | .init => some { s with table := HMap.init strHash strEQ } -- src/runtime.c:1064, types.c:375: the table all threads share

def Shared.run (s : Shared) : List Act → Option Shared
  | [] => some s
  | a :: r => (s.act a).bind fun s => s.run r

/-- src/types.c:375: the first machine is made, the table is empty -/
def Shared.start : Shared := ⟨HMap.init strHash strEQ, fun _ => .outside, []⟩

/-- the addresses `malloc` gives -/
def addresses : List Act → List Obj
  | [] => []
  | .place _ p :: r => p :: addresses r
  | _ :: r => addresses r

end Threads
end Cora
