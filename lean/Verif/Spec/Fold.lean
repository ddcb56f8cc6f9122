import Verif.Spec.Lang
/-
What a fold of a function of two arguments over values is, where the function may have effects: `x1 ∘ (x2 ∘ (… ∘ xn))`, the innermost
application first.
-/
namespace Spec.Lang
variable {W : Type}

/-- `ap w x y v w'`: applying the function to `x` and `y` in the world `w` gives `v` and the world `w'` -/
inductive FoldRight (ap : World W → Val → Val → Val → World W → Prop) : List Val → World W → Val → World W → Prop where
  | two (x y w v w') : ap w x y v w' → FoldRight ap [x, y] w v w'
  | more (x y r w u w1 v w') : FoldRight ap (y :: r) w u w1 → ap w1 x u v w' → FoldRight ap (x :: y :: r) w v w'

end Spec.Lang
