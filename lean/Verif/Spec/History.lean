import Verif.Model.Symbols
/-
Specifications about histories: the value most recently stored.
-/
namespace Spec
open Cora

/-- the value most recently stored for `k` in a history listed oldest first -/
def lastStored {K V : Type} (eq : K → K → Bool) : List (K × V) → K → Option V
  | [], _ => none
  | (k', v) :: later, k =>
    (lastStored eq later k).or (if eq k k' then some v else none)

/-- the value most recently `set` for the symbol `s` in a history of operations, oldest first -/
def lastSet : List GOp → Sym → Option Obj
  | [], _ => none
  | .set s' v :: rest, s =>
    (lastSet rest s).or (if s = s' then some v else none)
  | _ :: rest, s => lastSet rest s

/-- the value of a variable before anything was set: interned symbols are unset, gensyms hold `()` -/
def initialValue : Sym → Obj
  | .interned _ => Undef
  | .gensym _ => Nil

end Spec
