import Verif.Spec.Lang
/-
What is said about programs when they are compiled: their names and where they are bound.
-/
namespace Spec.Lang

mutual
/-- the variables a form binds anywhere -/
def Core.binders : Core → List Sym
  | .lit _ => []
  | .quote _ => []
  | .var _ => []
  | .lam ps b => ps ++ b.binders
  | .ite a b c => a.binders ++ b.binders ++ c.binders
  | .seq a b => a.binders ++ b.binders
  | .bind x e b => x :: e.binders ++ b.binders
  | .app f args => f.binders ++ Core.binderss args
def Core.binderss : List Core → List Sym
  | [] => []
  | c :: r => c.binders ++ Core.binderss r
end

mutual
/-- the variables a form mentions or binds anywhere -/
def Core.syms : Core → List Sym
  | .lit _ => []
  | .quote _ => []
  | .var x => [x]
  | .lam ps b => ps ++ b.syms
  | .ite a b c => a.syms ++ b.syms ++ c.syms
  | .seq a b => a.syms ++ b.syms
  | .bind x e b => x :: e.syms ++ b.syms
  | .app f args => f.syms ++ Core.symss args
def Core.symss : List Core → List Sym
  | [] => []
  | c :: r => c.syms ++ Core.symss r
end

/-- `gensym` has not made any of the symbols that it makes from now on -/
def Below (k : Nat) (xs : List Sym) : Prop := ∀ n, .gen n ∈ xs → n < k

/-- is it the name of a primitive -/
def Sym.isPrim : Sym → Bool
  | .named p => (primArity p).isSome
  | .gen _ => false

/-- none of the variables is named like a primitive -/
def NoPrims (xs : List Sym) : Prop := ∀ x ∈ xs, x.isPrim = false

mutual
/-- the variables a form binds by `let`, not inside functions -/
def Core.lets : Core → List Sym
  | .lit _ => []
  | .quote _ => []
  | .var _ => []
  | .lam _ _ => []
  | .ite a b c => a.lets ++ b.lets ++ c.lets
  | .seq a b => a.lets ++ b.lets
  | .bind x e b => x :: e.lets ++ b.lets
  | .app f args => f.lets ++ Core.letss args
def Core.letss : List Core → List Sym
  | [] => []
  | c :: r => c.lets ++ Core.letss r
end

mutual
/-- `let` binds no variable that is in use: neither a parameter or `let` variable of the same function in whose scope
it is, nor a variable that the function takes from outside; and the operands of a call bind different variables.
`S`: the variables in use. -/
def Core.tidy (S : List Sym) : Core → Prop
  | .lit _ => True
  | .quote _ => True
  | .var _ => True
  | .lam ps b => b.tidy (ps ++ S.filter fun x => decide (x ∈ (Core.lam ps b).fv))
  | .ite a b c => a.tidy S ∧ b.tidy S ∧ c.tidy S
  | .seq a b => a.tidy S ∧ b.tidy S
  | .bind x e b => x ∉ S ∧ e.tidy S ∧ b.tidy (x :: S)
  | .app f args => f.tidy S ∧ Core.tidys S args ∧ ∀ x ∈ f.lets, x ∉ Core.letss args
def Core.tidys (S : List Sym) : List Core → Prop
  | [] => True
  | c :: r => c.tidy S ∧ Core.tidys S r ∧ ∀ x ∈ c.lets, x ∉ Core.letss r
end

/-- an application of a primitive gives it all its operands -/
def fullCall : Core → List Core → Prop
  | .var (.named p), args => ∀ n, primArity p = some n → args.length = n
  | _, _ => True

mutual
/-- primitives are called with all their operands -/
def Core.full : Core → Prop
  | .lit _ => True
  | .quote _ => True
  | .var _ => True
  | .lam _ b => b.full
  | .ite a b c => a.full ∧ b.full ∧ c.full
  | .seq a b => a.full ∧ b.full
  | .bind _ e b => e.full ∧ b.full
  | .app f args => f.full ∧ Core.fulls args ∧ fullCall f args
def Core.fulls : List Core → Prop
  | [] => True
  | c :: r => c.full ∧ Core.fulls r
end

end Spec.Lang
