import Verif.Spec.Lang
/-
What the derived forms mean, in terms of the core language: `let`, `cond`, `or`, `and`, `begin`, `match`,
quasi-quotation.
-/
namespace Spec.Lang
variable {W : Type}

/-- `(or e1 e2 …)`: operands from left to right; the first that is true decides, the ones after it are not evaluated -/
inductive EvalOr (E : Ext W) (env : Env) : World W → List Core → Val → World W → Prop where
  | none (w) : EvalOr E env w [] (.bool false) w
  | stop (w e es w1) : Eval E env w e (.bool true) w1 → EvalOr E env w (e :: es) (.bool true) w1
  | next (w e es u v w1 w2) : Eval E env w e u w1 → u ≠ .bool true → EvalOr E env w1 es v w2 →
      EvalOr E env w (e :: es) v w2

/-- `(and e1 e2 …)`: operands from left to right; the first that is not true decides, the ones after it are not
evaluated. If all are true the value is `true`. -/
inductive EvalAnd (E : Ext W) (env : Env) : World W → List Core → Val → World W → Prop where
  | none (w) : EvalAnd E env w [] (.bool true) w
  | stop (w e es u w1) : Eval E env w e u w1 → u ≠ .bool true → EvalAnd E env w (e :: es) (.bool false) w1
  | next (w e es v w1 w2) : Eval E env w e (.bool true) w1 → EvalAnd E env w1 es v w2 →
      EvalAnd E env w (e :: es) v w2

/-- the call `(error msg)` -/
def errorCall (msg : String) : Core := .app (.var (.named "error")) [.lit (.str msg)]

/-- `(cond (t1 a1) (t2 a2) …)`: the action of the first test that is true; later clauses are not looked at. If none is
true, `error` is called. -/
inductive EvalCond (E : Ext W) (env : Env) : World W → List (Core × Core) → Val → World W → Prop where
  | none (w v w') : Eval E env w (errorCall "no cond match") v w' → EvalCond E env w [] v w'
  | hit (w t a cs v w1 w2) : Eval E env w t (.bool true) w1 → Eval E env w1 a v w2 →
      EvalCond E env w ((t, a) :: cs) v w2
  | next (w t a cs u v w1 w2) : Eval E env w t u w1 → u ≠ .bool true → EvalCond E env w1 cs v w2 →
      EvalCond E env w ((t, a) :: cs) v w2

/-- `(begin e1 … en)`: all of them in order; the value is that of the last -/
inductive EvalBegin (E : Ext W) (env : Env) : World W → List Core → Val → World W → Prop where
  | last (w e v w') : Eval E env w e v w' → EvalBegin E env w [e] v w'
  | next (w e es u v w1 w2) : Eval E env w e u w1 → es ≠ [] → EvalBegin E env w1 es v w2 →
      EvalBegin E env w (e :: es) v w2

/-- `(let x1 e1 … xn en body)`: each expression sees the variables before it -/
inductive EvalLet (E : Ext W) : Env → World W → List (Sym × Core) → Core → Val → World W → Prop where
  | body (env w b v w') : Eval E env w b v w' → EvalLet E env w [] b v w'
  | next (env w x e bs b u v w1 w2) : Eval E env w e u w1 → EvalLet E ((x, u) :: env) w1 bs b v w2 →
      EvalLet E env w ((x, e) :: bs) b v w2

/-- a proper list of values, ending in `tail` -/
def listVal : List Val → Val → Val
  | [], tail => tail
  | v :: vs, tail => .cons v (listVal vs tail)

/-- a quasi-quotation template with holes: an atom, a hole, or a list of at least one template -/
inductive Tmpl (α : Type) where
  | atom (d : Datum)
  | hole (a : α)
  | list (t : Tmpl α) (ts : List (Tmpl α))

mutual
/-- how a template is written -/
def Tmpl.form : Tmpl Datum → Datum
  | .atom d => d
  | .hole e => .list [kw "unquote", e]
  | .list t ts => .cons t.form (.list (Tmpl.forms ts))
def Tmpl.forms : List (Tmpl Datum) → List Datum
  | [] => []
  | t :: ts => t.form :: Tmpl.forms ts
end

mutual
/-- atoms are no pairs, and no list is written like a hole -/
def Tmpl.ok : Tmpl Datum → Prop
  | .atom d => ∀ a b, d ≠ .cons a b
  | .hole _ => True
  | .list t ts => t.ok ∧ Tmpl.oks ts ∧ ¬ (t = .atom (kw "unquote") ∧ ts.length = 1)
def Tmpl.oks : List (Tmpl Datum) → Prop
  | [] => True
  | t :: ts => t.ok ∧ Tmpl.oks ts
end

mutual
/-- filling a template: atoms are literal data, a hole gives the value of its expression, from left to right -/
inductive EvalTmpl (E : Ext W) (env : Env) : World W → Tmpl Core → Val → World W → Prop where
  | atom (w d) : EvalTmpl E env w (.atom d) d.val w
  | hole (w c v w') : Eval E env w c v w' → EvalTmpl E env w (.hole c) v w'
  | list (w t ts v vs w1 w2) : EvalTmpl E env w t v w1 → EvalTmpls E env w1 ts vs w2 →
      EvalTmpl E env w (.list t ts) (listVal (v :: vs) .nil) w2
inductive EvalTmpls (E : Ext W) (env : Env) : World W → List (Tmpl Core) → List Val → World W → Prop where
  | nil (w) : EvalTmpls E env w [] [] w
  | cons (w t ts v vs w1 w2) : EvalTmpl E env w t v w1 → EvalTmpls E env w1 ts vs w2 →
      EvalTmpls E env w (t :: ts) (v :: vs) w2
end

/-- patterns -/
inductive Pat where
  | lit (c : Const)
  | quote (d : Datum)
  | var (x : Sym)
  | cons (a d : Pat)

/-- how a pattern is written -/
def Pat.form : Pat → Datum
  | .lit c => c.datum
  | .quote d => .list [kw "quote", d]
  | .var x => .sym x
  | .cons a d => .list [kw "cons", a.form, d.form]

/-- ways to write a pattern: as above, or with list notation `[p1 … pn]` and `[p1 … pn . p]` -/
inductive PatSyntax : Datum → Pat → Prop where
  | lit (c) : PatSyntax c.datum (.lit c)
  | quote (d) : PatSyntax (.list [kw "quote", d]) (.quote d)
  | var (x) : PatSyntax (.sym x) (.var x)
  | cons {a d p q} : PatSyntax a p → PatSyntax d q → PatSyntax (.list [kw "cons", a, d]) (.cons p q)
  | list0 : PatSyntax (.list [kw "list"]) (.lit .nil)
  | list {a p r q} : PatSyntax a p → PatSyntax (.cons (kw "list") r) q →
      PatSyntax (.cons (kw "list") (.cons a r)) (.cons p q)
  | rest1 {a p} : PatSyntax a p → PatSyntax (.list [kw "list-rest", a]) p
  | rest {a p b r q} : PatSyntax a p → PatSyntax (.cons (kw "list-rest") (.cons b r)) q →
      PatSyntax (.cons (kw "list-rest") (.cons a (.cons b r))) (.cons p q)

/-- the variables of a pattern -/
def Pat.vars : Pat → List Sym
  | .lit _ => []
  | .quote _ => []
  | .var x => [x]
  | .cons a d => a.vars ++ d.vars

/-- matching: the variables, left to right, with the component each one stands for -/
def Pat.bind : Pat → Val → Option Env
  | .lit c, v => if v.datum = some c.datum then some [] else none
  | .quote d, v => if v.datum = some d then some [] else none
  | .var x, v => some [(x, v)]
  | .cons a d, .cons u v =>
    match a.bind u, d.bind v with
    | some l, some r => some (l ++ r)
    | _, _ => none
  | .cons _ _, _ => none

/-- a clause of `match`: pattern, guard, action -/
structure Clause where
  pat : Pat
  guard : Option Core
  act : Core

/-- choosing a clause for the value `v`: the first whose pattern matches and whose guard is true. Its action sees the
pattern's variables. If there is none, `error` is called. -/
inductive EvalClauses (E : Ext W) (env : Env) (v : Val) : World W → List Clause → Val → World W → Prop where
  | none (w r w') : Eval E env w (errorCall "no match-help found!") r w' → EvalClauses E env v w [] r w'
  | miss (w c cs r w') : c.pat.bind v = none → EvalClauses E env v w cs r w' → EvalClauses E env v w (c :: cs) r w'
  | plain (w c cs bs r w') : c.pat.bind v = some bs → c.guard = none → Eval E (bs.reverse ++ env) w c.act r w' →
      EvalClauses E env v w (c :: cs) r w'
  | hit (w c cs bs g r w1 w2) : c.pat.bind v = some bs → c.guard = some g →
      Eval E (bs.reverse ++ env) w g (.bool true) w1 → Eval E (bs.reverse ++ env) w1 c.act r w2 →
      EvalClauses E env v w (c :: cs) r w2
  | refuse (w c cs bs g u r w1 w2) : c.pat.bind v = some bs → c.guard = some g →
      Eval E (bs.reverse ++ env) w g u w1 → u ≠ .bool true → EvalClauses E env v w1 cs r w2 →
      EvalClauses E env v w (c :: cs) r w2

/-- `(match e clause …)`: `e` is evaluated once, then a clause is chosen for its value -/
inductive EvalMatch (E : Ext W) (env : Env) : World W → Core → List Clause → Val → World W → Prop where
  | mk (w e cs v r w1 w2) : Eval E env w e v w1 → EvalClauses E env v w1 cs r w2 → EvalMatch E env w e cs r w2

end Spec.Lang
