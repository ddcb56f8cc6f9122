import Verif.Spec.Names
import Verif.Spec.Sexp
/-
Source files: how data is spelled, and which forms of a file are notes for the type checker.
-/
namespace Spec.Lang

/-- how data is spelled: names and strings in UTF-8. A generated symbol has no spelling. -/
def Datum.sexp : Datum → Option Sexp
  | .int n => some (.int n)
  | .bool b => some (.bool b)
  | .nil => some .nil
  | .str s => some (.str s.toUTF8.data.toList)
  | .sym (.named s) => some (.sym s.toUTF8.data.toList)
  | .sym (.gen _) => none
  | .cons a d => match a.sexp, d.sexp with
    | some x, some y => some (.cons x y)
    | _, _ => none

/-- the text is that of a file with these forms, in any layout, with any comments -/
def IsText (t : List UInt8) (ds : List Datum) : Prop := ∃ ss, FileText t ss ∧ ds.map Datum.sexp = ss.map some

/-- a note for the type checker: `(:type …)` or `(:declare …)` -/
def Datum.isNote : Datum → Bool
  | .cons (.sym (.named ":type")) _ => true
  | .cons (.sym (.named ":declare")) _ => true
  | _ => false

/-- the forms without the notes -/
def withoutNotes (ds : List Datum) : List Datum := ds.filter fun d => !d.isNote

end Spec.Lang
