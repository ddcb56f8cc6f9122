import Verif.Spec.Interp
import Verif.Spec.Names
import Verif.Spec.Peval
import Verif.Model.Interp
/-
What a script means: its forms one after the other, with names from imported packages. Only the values of the interpreter are taken
from the model (to say what is seen of them).
-/
namespace Spec.Lang
variable {W : Type}

/-- the strings at the start of a list -/
def Datum.texts : Datum → List String
  | .cons (.str s) d => s :: d.texts
  | _ => []

/-- the symbols at the start of a list -/
def Datum.names : Datum → List Sym
  | .cons (.sym x) d => x :: d.names
  | _ => []

/-- the data in a global variable; the empty list if there is none -/
def World.data (w : World W) (x : Sym) : Datum := ((w.globals x).bind Val.datum).getD .nil

/-- the packages imported, last first -/
def World.imported (w : World W) : List String := (w.data (.named "cora/init#*imported*")).texts

/-- what a package exports -/
def World.exported (w : World W) (p : String) : List Sym := (w.data (ofPackage p (.named "*ns-export*"))).names

/-- the variable that a name in a script refers to: that of the package imported last that exports the name, otherwise the one with
that name -/
def World.means (w : World W) (x : Sym) : Sym := resolveGlobal w.exported "" w.imported x

/-- the world as a form of a script sees it: each name has the value of the variable it refers to -/
def World.opened (w : World W) : World W := { w with globals := fun x => w.globals (w.means x) }

/-- the forms of a script, each with its value and the world after it -/
inductive Says (E : Ext W) : World W → List (Core × Val × World W) → Prop where
  | nil (w) : Says E w []
  | cons {w e v w1 r} : Eval E [] w.opened e v w1 → Says E w1 r → Says E w ((e, v, w1) :: r)

/-- the same for the part of the language that the interpreter handles (`Plain.Eval`) -/
inductive PlainlySays (E : Ext W) (fixed : Sym → Bool) : World W → List (Core × Val × World W) → Prop where
  | nil (w) : PlainlySays E fixed w []
  | cons {w e v w1 r} : Plain.Eval E fixed [] w.opened e v w1 → PlainlySays E fixed w1 r → PlainlySays E fixed w ((e, v, w1) :: r)

/-- Names that packages export have no `#` in them, are not those of primitives, and the script sets neither them nor the variables
they refer to. -/
def Tidily (fixed : Sym → Bool) (exported : String → List Sym) (imported : List String) : Prop :=
  ∀ p ∈ imported, ∀ x ∈ exported p, ¬ x.qualified ∧ x.primitive = false ∧ fixed x = true ∧ fixed (ofPackage p x) = true

def World.Tidy (fixed : Sym → Bool) (w : World W) : Prop := Tidily fixed w.exported w.imported

/-- what is exported by an imported package stays so -/
def World.Keeps (w w1 : World W) : Prop := ∀ p ∈ w.imported, ∀ x ∈ w.exported p, ∃ q ∈ w1.imported, x ∈ w1.exported q

/-- every form leaves the packages in order -/
def Orderly (fixed : Sym → Bool) : World W → List (World W) → Prop
  | _, [] => True
  | w, w1 :: r => w.Keeps w1 ∧ w1.Tidy fixed ∧ Orderly fixed w1 r

/-- what is seen of a value of the interpreter is what is seen of a value of the language: the same data, and functions that
take the same number of arguments, in the same places -/
inductive Shows : Cora.Interp.Val → Val → Prop where
  | int (n) : Shows (.int n) (.int n)
  | bool (b) : Shows (.bool b) (.bool b)
  | nil : Shows .nil .nil
  | str (s) : Shows (.str s) (.str s)
  | sym (x) : Shows (.sym x) (.sym x)
  | cons {a d a' d'} : Shows a a' → Shows d d' → Shows (.cons a d) (.cons a' d')
  | clo {ps : List Sym} {ps' b b' env env'} : ps.length = ps'.length → Shows (.clo (.list (ps.map .sym)) b env) (.clo ps' b' env')
  | prim (p) : Shows (.prim p) (.prim p)
  | native (id n) : Shows (.native id n) (.native id n)
  | pap {f f' args args'} : Shows f f' → args.length = args'.length →
      (∀ i (h : i < args.length) (h' : i < args'.length), Shows args[i] args'[i]) → Shows (.pap f args) (.pap f' args')

/-- one after the other -/
inductive ShowsAll : List Cora.Interp.Val → List Val → Prop where
  | nil : ShowsAll [] []
  | cons {u v us vs} : Shows u v → ShowsAll us vs → ShowsAll (u :: us) (v :: vs)

/-- a state of the interpreter shows what the world is: the rest is the same, and every name, through the variable it refers to, has a
value that shows the right one -/
structure ShowsWorld (u : Cora.Interp.World W) (w : World W) : Prop where
  rest : u.rest = w.rest
  unset : ∀ x, w.opened.globals x = none → u.globals (w.means x) = none
  globals : ∀ x v, w.opened.globals x = some v → ∃ a, u.globals (w.means x) = some a ∧ Shows a v

/-- a list of strings -/
def textList : List String → Val
  | [] => .nil
  | s :: r => .cons (.str s) (textList r)

end Spec.Lang
