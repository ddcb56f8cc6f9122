import Verif.Spec.Forms
/-
C105: type schemes. A scheme is a tree of names; its holes are the places of quantified variables.
-/
namespace Spec.Lang

abbrev Scheme := Tmpl Sym

mutual
/-- how the type in a scheme is written -/
def Scheme.text : Scheme → Datum
  | .atom d => d
  | .hole x => .sym x
  | .list t ts => .cons (Scheme.text t) (.list (Scheme.texts ts))
def Scheme.texts : List Scheme → List Datum
  | [] => []
  | t :: ts => Scheme.text t :: Scheme.texts ts
end

mutual
/-- the holes are variables in `vs`; the rest is names that are not in `vs`, and () -/
def Scheme.over (vs : List Sym) : Scheme → Prop
  | .atom d => d = .nil ∨ ∃ x, d = .sym x ∧ x ∉ vs ∧ x ≠ .named "unquote"
  | .hole x => x ∈ vs
  | .list t ts => Scheme.over vs t ∧ Scheme.overs vs ts
def Scheme.overs (vs : List Sym) : List Scheme → Prop
  | [] => True
  | t :: ts => Scheme.over vs t ∧ Scheme.overs vs ts
end

mutual
/-- the type in which the variables are the numbers from `n` on -/
def Scheme.copy (vs : List Sym) (n : Int) : Scheme → Val
  | .atom d => d.val
  | .hole x => .int (n + vs.idxOf x)
  | .list t ts => .cons (Scheme.copy vs n t) (listVal (Scheme.copies vs n ts) .nil)
def Scheme.copies (vs : List Sym) (n : Int) : List Scheme → List Val
  | [] => []
  | t :: ts => Scheme.copy vs n t :: Scheme.copies vs n ts
end

/-- `(forall (v1 … vn) type)` -/
def forallForm (vs : List Sym) (t : Scheme) : Datum := .list [kw "forall", .list (vs.map .sym), Scheme.text t]

/-- the numbers in a value -/
def Val.numbers : Val → List Int
  | .int n => [n]
  | .cons a d => a.numbers ++ d.numbers
  | _ => []

end Spec.Lang
