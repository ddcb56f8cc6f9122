import Verif.Model.Peval
/-
Which runs of the partial evaluator are harmless: the checks below follow the run and look at every simplification that it makes.
A check fails exactly where one of the known defects (the theorems `C55_*_wrong`) could strike. `Γ` lists the local variables of
the simplified program at the place in question.
-/
namespace Spec.Lang
open Cora.Peval

mutual
/-- the variables that a form binds somewhere inside -/
def binders : Core → List Sym
  | .lit _ => []
  | .quote _ => []
  | .var _ => []
  | .lam ps b => ps ++ binders b
  | .ite a b c => binders a ++ (binders b ++ binders c)
  | .seq a b => binders a ++ binders b
  | .bind x e b => x :: (binders e ++ binders b)
  | .app f args => binders f ++ bindersAll args
def bindersAll : List Core → List Sym
  | [] => []
  | e :: r => binders e ++ bindersAll r
end

mutual
/-- textual substitution, also under binders of other variables -/
def subst (σ : List (Sym × Core)) : Core → Core
  | .lit c => .lit c
  | .quote d => .quote d
  | .var x => (lookup x σ).getD (.var x)
  | .lam ps b => .lam ps (subst (shrink ps σ) b)
  | .ite a b c => .ite (subst σ a) (subst σ b) (subst σ c)
  | .seq a b => .seq (subst σ a) (subst σ b)
  | .bind x e b => .bind x (subst σ e) (subst (shrink [x] σ) b)
  | .app f args => .app (subst σ f) (substAll σ args)
def substAll (σ : List (Sym × Core)) : List Core → List Core
  | [] => []
  | e :: r => subst σ e :: substAll σ r
end

/-- a form whose evaluation has no effect and whose value never changes: a constant, a function, a local variable or a list of such -/
def isStatic (Γ : List Sym) : Core → Bool
  | .lit _ => true
  | .quote _ => true
  | .lam _ _ => true
  | .var x => decide (x ∈ Γ)
  | .app (.var (.named "cons")) [a, d] => decide (.named "cons" ∉ Γ) && isStatic Γ a && isStatic Γ d
  | _ => false

/-- no variable of the first list is in the second -/
def apart (xs ys : List Sym) : Bool := xs.all fun x => decide (x ∉ ys)

/-- the name of a primitive -/
def isPrimName : Core → Bool
  | .var (.named p) => (primArity p).isSome
  | _ => false

/-- folding this call of a builtin function is harmless: nobody has rebound the name, and what the fold drops has no effect -/
def foldHarmless (Γ : List Sym) : String → List Core → Bool
  | "cons?", [.app (.var (.named "cons")) [a, d]] => decide (.named "cons?" ∉ Γ) && decide (.named "cons" ∉ Γ) && isStatic Γ a && isStatic Γ d
  | "car", [.app (.var (.named "cons")) [_, d]] => decide (.named "car" ∉ Γ) && decide (.named "cons" ∉ Γ) && isStatic Γ d
  | "cdr", [.app (.var (.named "cons")) [a, _]] => decide (.named "cdr" ∉ Γ) && decide (.named "cons" ∉ Γ) && isStatic Γ a
  | "not", [.lit (.bool _)] => decide (.named "not" ∉ Γ)
  | "+", [.lit (.int _), .lit (.int _)] => decide (.named "+" ∉ Γ)
  | "-", [.lit (.int _), .lit (.int _)] => decide (.named "-" ∉ Γ)
  | _, _ => false

/-- the same for any function -/
def builtinHarmless (Γ : List Sym) : Core → List Core → Bool
  | .var (.named p), args => foldHarmless Γ p args
  | _, _ => false

/-- a form of the program does not stand for a global variable, and `cons` in it is the builtin function -/
def settled (Γ : List Sym) (val : Core) : Bool :=
  match val with
  | .var x => decide (x ∈ Γ)
  | _ => !isConstList val || decide (.named "cons" ∉ Γ)

/-- no form that will be put in for a variable mentions `x` -/
def unused (σ : List (Sym × Core)) (x : Sym) : Bool := (shrink [x] σ).all fun kv => decide (x ∉ kv.2.fv)

/-- putting a form in the place of the variable `x` of `body`, in the scope of the substitution `σ`, is harmless -/
def substHarmless (Γ : List Sym) (σ : List (Sym × Core)) (x : Sym) (val body : Core) : Bool :=
  settled Γ val && apart val.fv (binders (subst (shrink [x] σ) body)) && unused σ x

/-- dropping the variable `x` is harmless -/
def dropHarmless (Γ : List Sym) (σ : List (Sym × Core)) (x : Sym) (val : Core) : Bool :=
  settled Γ val && decide (x ≠ .named "cons") && unused σ x

/-- moving the constant arguments of a call of a function into its body is harmless -/
def callHarmless (Γ : List Sym) (σ : List (Sym × Core)) (ps : List Sym) (args : List Core) (b : Core) : Bool :=
  apart b.fv ((shrink ps σ).map Prod.fst) &&
    (decide (∀ a ∈ (args.take ps.length), (isConst a || isConstList a) = false) ||
      (decide (ps.length ≤ args.length) && decide ps.Nodup && decide (.named "cons" ∉ ps ++ (Γ ++ binders b))))

/-- the run of the partial evaluator on a form is harmless -/
def harmless : Nat → List Sym → List (Sym × Core) → Core → Bool
  | 0, _, _, _ => false
  | _ + 1, _, _, .var _ => true
  | _ + 1, _, _, .quote _ => true
  | _ + 1, _, _, .lit _ => true
  | n + 1, Γ, σ, .ite a b c =>
    harmless n Γ σ a && match (peval n σ a).map testOf with
      | some .yes => harmless n Γ σ b
      | some .no => harmless n Γ σ c
      | _ => harmless n Γ σ b && harmless n Γ σ c
  | n + 1, Γ, σ, .seq a b => harmless n Γ σ a && harmless n Γ σ b
  | n + 1, Γ, σ, .lam ps b => harmless n (ps ++ Γ) (shrink ps σ) b
  | n + 1, Γ, σ, .bind x e b =>
    harmless n Γ σ e && match peval n σ e with
      | none => false
      | some val =>
        match letPlan x val b with
        | .subst => substHarmless Γ σ x val b && harmless n Γ ((x, val) :: σ) b
        | .drop => dropHarmless Γ σ x val && harmless n Γ σ b
        | .seq => dropHarmless Γ σ x val && harmless n Γ σ b
        | .keep => harmless n (x :: Γ) (shrink [x] σ) b
  | n + 1, Γ, σ, .app f args =>
    harmless n Γ σ f && args.all (harmless n Γ σ) && match peval n σ f, args.mapM (peval n σ) with
      | some f', some args' =>
        (isSymbol (subst σ f) || !isPrimName f') &&
        match headOf f' args' with
        | .builtin _ => builtinHarmless Γ f' args'
        | .lambda ps b =>
          callHarmless Γ σ ps args' b &&
            harmless n ((extendEnv ps args' σ).1 ++ Γ) (shrink (extendEnv ps args' σ).1 (extendEnv ps args' σ).2.2) b
        | .other => true
      | _, _ => false

end Spec.Lang
