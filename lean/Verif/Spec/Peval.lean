import Verif.Spec.Lang
/-
Programs that behave the same: what an optimiser must keep. Written down without reference to the partial evaluator.
-/
namespace Spec.Lang
variable {W : Type}

mutual
/-- the same value as far as anyone can see who does not look into functions: the same data, and functions of the same kind,
that take the same number of arguments, in the same places -/
inductive Looks : Val → Val → Prop where
  | int (n) : Looks (.int n) (.int n)
  | bool (b) : Looks (.bool b) (.bool b)
  | nil : Looks .nil .nil
  | str (s) : Looks (.str s) (.str s)
  | sym (x) : Looks (.sym x) (.sym x)
  | cons {a d a' d'} : Looks a a' → Looks d d' → Looks (.cons a d) (.cons a' d')
  | clo {ps ps' b b' env env'} : ps.length = ps'.length → Looks (.clo ps b env) (.clo ps' b' env')
  | prim (p) : Looks (.prim p) (.prim p)
  | pap {f f' args args'} : Looks f f' → LooksAll args args' → Looks (.pap f args) (.pap f' args')
  | native (id n) : Looks (.native id n) (.native id n)
inductive LooksAll : List Val → List Val → Prop where
  | nil : LooksAll [] []
  | cons {u v us vs} : Looks u v → LooksAll us vs → LooksAll (u :: us) (v :: vs)
end

/-- a relation between values that respects the data and sees functions as black boxes -/
structure Likeness (V : Val → Val → Prop) : Prop where
  int : ∀ n u, V (.int n) u ↔ u = .int n
  bool : ∀ b u, V (.bool b) u ↔ u = .bool b
  nil : ∀ u, V .nil u ↔ u = .nil
  str : ∀ s u, V (.str s) u ↔ u = .str s
  sym : ∀ x u, V (.sym x) u ↔ u = .sym x
  cons : ∀ a d u, V (.cons a d) u ↔ ∃ a' d', u = .cons a' d' ∧ V a a' ∧ V d d'
  prim : ∀ p u, V (.prim p) u ↔ u = .prim p
  native : ∀ id n u, V (.native id n) u ↔ u = .native id n
  looks : ∀ u v, V u v → Looks u v

/-- lists related element by element -/
inductive Each (V : Val → Val → Prop) : List Val → List Val → Prop where
  | nil : Each V [] []
  | cons {u v us vs} : V u v → Each V us vs → Each V (u :: us) (v :: vs)

/-- worlds that differ only in related values of global variables -/
structure SameWorld (V : Val → Val → Prop) (w w' : World W) : Prop where
  rest : w.rest = w'.rest
  unset : ∀ x, w.globals x = none → w'.globals x = none
  globals : ∀ x v, w.globals x = some v → ∃ v', w'.globals x = some v' ∧ V v v'

/-- the outside does not look into functions -/
structure Ext.BlackBox (E : Ext W) : Prop where
  prim : ∀ V, Likeness V → ∀ p us us' r v r', Each V us us' → E.prim p us r = some (v, r') →
    ∃ v', E.prim p us' r = some (v', r') ∧ V v v'
  native : ∀ V, Likeness V → ∀ id us us' w w' v w1, Each V us us' → SameWorld V w w' →
    E.native id us w = some (v, w1) → ∃ v' w1', E.native id us' w' = some (v', w1') ∧ V v v' ∧ SameWorld V w1 w1'

/-- `+` and `-` of integers -/
structure Ext.Adds (E : Ext W) : Prop where
  plus : ∀ x y r, E.prim "+" [.int x, .int y] r = some (.int (x + y), r)
  minus : ∀ x y r, E.prim "-" [.int x, .int y] r = some (.int (x - y), r)

/-- forms evaluated one after the other at top level, with their values -/
inductive Runs (E : Ext W) : World W → List Core → List Val → World W → Prop where
  | nil (w) : Runs E w [] [] w
  | cons (w e es v vs w1 w2) : Eval E [] w e v w1 → Runs E w1 es vs w2 → Runs E w (e :: es) (v :: vs) w2

end Spec.Lang
