import Verif.Model.Eq
/-
Specification of the data a cora value stands for, independent of `eq`.
-/
namespace Spec
open Cora

/-- Finite data: an atom (number, symbol, immediate, vector, closure … identified by its own word), a
string with its bytes, or a pair. -/
inductive Datum where
  | atom (w : BitVec 64)
  | str (b : List UInt8)
  | pair (a d : Datum)
deriving DecidableEq, Repr

/-- `Denotes m o d`: in memory `m` the value `o` stands for the datum `d`. Only finite (acyclic) values
denote something. Strings are shorter than 2^31 bytes (`int len`). -/
inductive Denotes (m : Mem) : Obj → Datum → Prop where
  | atom {o} (h1 : iscons o = false) (h2 : isBytes o = false) : Denotes m o (.atom o)
  | str {o b} (h : isBytes o = true) (hm : m (ptrOf o) = some (.bytes b)) (hl : b.length < 2 ^ 31) :
      Denotes m o (.str b)
  | pair {o a d x y} (h : iscons o = true) (hm : m (ptrOf o) = some (.cons a d))
      (ha : Denotes m a x) (hd : Denotes m d y) : Denotes m o (.pair x y)

/-- the nesting depth of a datum -/
def Datum.depth : Datum → Nat
  | .pair a d => max a.depth d.depth + 1
  | _ => 1

end Spec
