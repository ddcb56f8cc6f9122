import Verif.Spec.Lang
/-
What the expansion of macros is: rules for single forms, without an order of work and without a bound.
-/
namespace Spec.Lang

/-- what a macro makes of a form: the form, the number of symbols generated before, the result, the number after -/
abbrev MacroRel := Datum → Nat → Datum → Nat → Prop

/-- `(h …)` is no special form of the expander -/
def Ordinary (protect : Sym) (h : Datum) : Prop := h ≠ .sym protect ∧ h ≠ kw "lambda" ∧ h ≠ kw "quote"

mutual
/-- The rules of expansion. `mac x` is what the macro `x` makes of a form; `protect` marks forms to be left as they are. -/
inductive Expand (mac : Sym → Option MacroRel) (protect : Sym) : Datum → Nat → Datum → Nat → Prop where
  /-- what is no pair stays -/
  | atom (e : Datum) (k : Nat) : (∀ a d, e ≠ .cons a d) → Expand mac protect e k e k
  /-- protected forms lose the mark -/
  | marked (t : Datum) (k : Nat) : Expand mac protect (.cons (.sym protect) t) k t k
  /-- quoted data stay -/
  | quoted (t : Datum) (k : Nat) : kw "quote" ≠ .sym protect → Expand mac protect (.cons (kw "quote") t) k (.cons (kw "quote") t) k
  /-- of a function the body is expanded; anything after the body is lost -/
  | lambda (ps b rest b' : Datum) (k k' : Nat) : kw "lambda" ≠ .sym protect → Expand mac protect b k b' k' →
      Expand mac protect (.cons (kw "lambda") (.cons ps (.cons b rest))) k (.list [kw "lambda", ps, b']) k'
  /-- a use of a macro is replaced by what the macro makes of it, and that is expanded -/
  | use (x : Sym) (m : MacroRel) (t r e' : Datum) (k k1 k' : Nat) : Ordinary protect (.sym x) → mac x = some m →
      m (.cons (.sym x) t) k r k1 → r ≠ .cons (.sym x) t → Expand mac protect r k1 e' k' → Expand mac protect (.cons (.sym x) t) k e' k'
  /-- if the macro leaves the form, its parts are expanded -/
  | stays (x : Sym) (m : MacroRel) (t e' : Datum) (k k1 k' : Nat) : Ordinary protect (.sym x) → mac x = some m →
      m (.cons (.sym x) t) k (.cons (.sym x) t) k1 → ExpandAll mac protect (.cons (.sym x) t) k1 e' k' →
      Expand mac protect (.cons (.sym x) t) k e' k'
  /-- of other forms the parts are expanded -/
  | call (h t e' : Datum) (k k' : Nat) : Ordinary protect h → (∀ x, h = .sym x → mac x = none) →
      ExpandAll mac protect (.cons h t) k e' k' → Expand mac protect (.cons h t) k e' k'
/-- the parts of a form, from left to right -/
inductive ExpandAll (mac : Sym → Option MacroRel) (protect : Sym) : Datum → Nat → Datum → Nat → Prop where
  | done (e : Datum) (k : Nat) : (∀ a d, e ≠ .cons a d) → ExpandAll mac protect e k .nil k
  | cons (a d a' d' : Datum) (k k1 k' : Nat) : Expand mac protect a k a' k1 → ExpandAll mac protect d k1 d' k' →
      ExpandAll mac protect (.cons a d) k (.cons a' d') k'
end

mutual
/-- Nothing is left to expand: no form whose value is needed has a macro at its head, but for those in `stay`, which are core forms too
(as `let` is). -/
inductive Clean (mac : Sym → Option MacroRel) (protect : Sym) (stay : Sym → Prop) : Datum → Prop where
  | atom (e : Datum) : (∀ a d, e ≠ .cons a d) → Clean mac protect stay e
  | quoted (t : Datum) : Clean mac protect stay (.cons (kw "quote") t)
  | lambda (ps b : Datum) : Clean mac protect stay b → Clean mac protect stay (.list [kw "lambda", ps, b])
  | call (h t : Datum) : Ordinary protect h → (∀ x, h = .sym x → mac x = none ∨ stay x) → CleanAll mac protect stay (.cons h t) →
      Clean mac protect stay (.cons h t)
inductive CleanAll (mac : Sym → Option MacroRel) (protect : Sym) (stay : Sym → Prop) : Datum → Prop where
  | nil : CleanAll mac protect stay .nil
  | cons (a d : Datum) : Clean mac protect stay a → CleanAll mac protect stay d → CleanAll mac protect stay (.cons a d)
end

/-- of a list of definitions the last one for a name counts -/
def lastOf {α : Type} (defs : List (Sym × α)) (x : Sym) : Option α := ((defs.filter (·.1 = x)).getLast?).map (·.2)

end Spec.Lang
