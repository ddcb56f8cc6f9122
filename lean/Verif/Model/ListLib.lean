import Verif.Spec.Lists
/-
Model of the list functions of /repo/init.cora and /repo/lib/sys.cora. `none` is a failing function argument
or `car`/`cdr` of something that is not a pair. Numbers are mathematical integers here (exact up to 2^53, see
C02).
-/
open Spec
namespace Cora.ListLib

/-- init.cora:21-25 `cora/init#reverse-h` -/
def reverseH {α : Type} : V α → V α → V α
  | res, .cons a d => reverseH (.cons a res) d
  | res, _ => res

/-- init.cora:26 `reverse` -/
def reverse {α : Type} (l : V α) : V α := reverseH .nil l

/-- init.cora:27-31 `map-h` -/
def mapH {α σ : Type} (f : V α → Eff σ (V α)) : V α → V α → Eff σ (V α)
  | res, .cons a d, s =>
    match f a s with
    | none => none
    | some (y, s) => mapH f (.cons y res) d s
  | res, _, s => some (reverse res, s)

/-- init.cora:32 `map` -/
def map {α σ : Type} (f : V α → Eff σ (V α)) (l : V α) : Eff σ (V α) := mapH f .nil l

/-- init.cora:109-114 `elem?` (`=` is equality of values, see C04) -/
def elem {α : Type} [DecidableEq α] (x : V α) : V α → Bool
  | .cons a d => if a = x then true else elem x d
  | _ => false

/-- init.cora:257-260 `cora/init#length-h` -/
def lengthH {α : Type} : Int → V α → Option Int
  | i, .nil => some i
  | i, .cons _ d => lengthH (i + 1) d
  | _, .atom _ => none

/-- init.cora:262-263 `length` -/
def length {α : Type} (l : V α) : Option Int := lengthH 0 l

/-- init.cora:265-270 `cora/init#filter-h` -/
def filterH {α σ : Type} (p : V α → Eff σ Bool) : V α → V α → Eff σ (V α)
  | res, .cons a d, s =>
    match p a s with
    | none => none
    | some (b, s) => if b then filterH p (.cons a res) d s else filterH p res d s
  | res, _, s => some (reverse res, s)

/-- init.cora:272-273 `filter` -/
def filter {α σ : Type} (p : V α → Eff σ Bool) (l : V α) : Eff σ (V α) := filterH p .nil l

/-- init.cora:275-278 `append` -/
def append {α : Type} : V α → V α → Option (V α)
  | .nil, l2 => some l2
  | .cons a d, l2 => (append d l2).map (.cons a)
  | .atom _, _ => none

/-- lib/sys.cora:22-24 `foldl` (and lib/toc.cora:11-13). `none` at an improper tail: no clause matches. -/
def foldl {α σ β : Type} (f : β → V α → Eff σ β) : β → V α → Eff σ β
  | acc, .nil, s => some (acc, s)
  | acc, .cons x y, s =>
    match f acc x s with
    | none => none
    | some (acc, s) => foldl f acc y s
  | _, .atom _, _ => none

/-- lib/sys.cora:26-30 `for-each` -/
def forEach {α σ β : Type} (f : V α → Eff σ β) : V α → Eff σ Unit
  | .nil, s => some ((), s)
  | .cons x y, s =>
    match f x s with
    | none => none
    | some (_, s) => forEach f y s
  | .atom _, _ => none

/-- lib/sys.cora:32-35 `member` -/
def member {α : Type} [DecidableEq α] (x : V α) : V α → Option Bool
  | .nil => some false
  | .cons y z => if x = y then some true else member x z
  | .atom _ => none

/-- init.cora:380-383 `assq` (also lib/sys.cora:16-19, lib/toc.cora:6-9): the pair found, or `()`. An element
that is not a pair is skipped by the third clause. -/
def assq {α : Type} [DecidableEq α] (var : V α) : V α → Option (V α)
  | .nil => some .nil
  | .cons (.cons x y) z => if var = x then some (.cons x y) else assq var z
  | .cons _ z => assq var z
  | .atom _ => none

end Cora.ListLib
