/-
Values as far as lists are concerned, and what sequencing a function over a list means.
-/
namespace Spec

/-- the empty list, a pair, or anything else (numbers, symbols, closures, ...) -/
inductive V (α : Type) where
  | nil
  | atom (a : α)
  | cons (h t : V α)
deriving DecidableEq, Repr

/-- the proper list of the given elements -/
def V.ofList {α : Type} : List (V α) → V α
  | [] => .nil
  | x :: r => .cons x (V.ofList r)

/-- a computation with effects on a state `σ` that may fail -/
abbrev Eff (σ β : Type) := σ → Option (β × σ)

/-- apply `f` to each element once, from left to right; the results in order -/
def mapInOrder {σ A B : Type} (f : A → Eff σ B) : List A → Eff σ (List B)
  | [], s => some ([], s)
  | x :: r, s =>
    match f x s with
    | none => none
    | some (y, s) =>
      match mapInOrder f r s with
      | none => none
      | some (ys, s) => some (y :: ys, s)

/-- keep the elements for which `p` says true, asking once per element, from left to right -/
def filterInOrder {σ A : Type} (p : A → Eff σ Bool) : List A → Eff σ (List A)
  | [], s => some ([], s)
  | x :: r, s =>
    match p x s with
    | none => none
    | some (b, s) =>
      match filterInOrder p r s with
      | none => none
      | some (ys, s) => some (if b then x :: ys else ys, s)

/-- fold from the left -/
def foldInOrder {σ A B : Type} (f : B → A → Eff σ B) : B → List A → Eff σ B
  | acc, [], s => some (acc, s)
  | acc, x :: r, s =>
    match f acc x s with
    | none => none
    | some (acc, s) => foldInOrder f acc r s

end Spec
