import Verif.Model.Boot
/-
C107: the macro `->`
-/
namespace Cora.Boot
open Spec Spec.Lang

theorem arrow_list (x : Datum) (fs : List Datum) : arrow x (Datum.list fs) = some (fs.foldl (fun o f => Datum.list [f, o]) x) := by
  induction fs generalizing x with
  | nil => rfl
  | cons f fs ih => exact ih _

/-- The macro `->` of the compiler: `(-> x f g h)` stands for `(h (g (f x)))`, with any number of functions. -/
theorem C107_arrow (x : Datum) (fs : List Datum) :
    arrowMacro (.list (.sym (.named "->") :: x :: fs)) = some (fs.foldl (fun o f => Datum.list [f, o]) x) := by
  show arrow x (Datum.list fs) = _
  exact arrow_list x fs

/-- with two functions -/
example : arrowMacro (.list [.sym (.named "->"), .sym (.named "x"), .sym (.named "f"), .sym (.named "g")]) =
    some (.list [.sym (.named "g"), .list [.sym (.named "f"), .sym (.named "x")]]) := rfl

end Cora.Boot
