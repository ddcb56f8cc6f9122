import Verif.Model.Macro
/-
lib/define-record.cora: the macro `define-record`.
-/
open Spec.Lang
namespace Cora.Record
open Cora.Macro (M gensym append cdr)

/-- lib/define-record.cora:8-11 `field-index-h` and 13-14 `field-index` (with `idx = 0`): where a field is in the
declaration. There is no clause for the empty list. -/
def fieldIndexH (idx : Nat) (field : Datum) : Datum → Option Nat
  | .cons (.cons x _) fields => if x = field then some idx else fieldIndexH (idx + 1) field fields
  | _ => none

def fieldIndex (field fields : Datum) : Option Nat := fieldIndexH 0 field fields

/-- lib/define-record.cora:16-28 `rewrite-field-h` -/
def rewriteFieldH (fields : Datum) : Datum → M Datum
  | .cons field (.cons getter (.cons setter .nil)) => do
    let arg ← gensym
    let val ← gensym
    let idx ← liftM (fieldIndex field fields)
    return .list [kw "begin",
      .list [kw "defun", getter, .list [arg], .list [kw "vector-ref", arg, .int (idx + 1 : Nat)]],
      .list [kw "defun", setter, .list [arg, val], .list [kw "vector-set!", arg, .int (idx + 1 : Nat), val]]]
  | .cons field (.cons getter .nil) => do
    let arg ← gensym
    let idx ← liftM (fieldIndex field fields)
    return .list [kw "defun", getter, .list [arg], .list [kw "vector-ref", arg, .int (idx + 1 : Nat)]]
  | .cons _ .nil => return .nil
  | _ => failure

/-- lib/define-record.cora:34-36: the assignments of the constructor -/
def initRecord (ret fields : Datum) : Datum → Option Datum
  | .cons init r => do
    let i ← fieldIndex init fields
    let more ← initRecord ret fields r
    some (.cons (.list [kw "vector-set!", ret, .int (1 + i : Nat), init]) more)
  | _ => some .nil

/-- lib/define-record.cora:30-50 `rewrite-define-record` -/
def rewriteDefineRecord : Datum → M Datum
  | .cons typename (.cons (.cons constructor inits) (.cons predicate fields)) => do
    let ret ← gensym
    let arg ← gensym
    let initRec ← liftM (initRecord ret fields inits)
    let n ← liftM (Cora.Macro.length fields)
    let body ← if initRec = .nil then pure (Datum.list [ret]) else liftM (append initRec (.list [ret]))
    let make : Datum := .list [kw "defun", constructor, inits,
      .list [kw "let", ret, .list [kw "vector", .int (1 + n : Nat)],
        .cons (kw "begin") (.cons (.list [kw "vector-set!", ret, .int 0, .list [kw "quote", typename]]) body)]]
    let pred : Datum := if .bool false = predicate then .nil else
      .list [kw "defun", predicate, .list [arg],
        .list [kw "and", .list [kw "vector?", arg],
          .list [kw "=", .list [kw "vector-length", arg], .int (1 + n : Nat)],
          .list [kw "=", .list [kw "vector-ref", arg, .int 0], .list [kw "quote", typename]]]]
    let fs ← Cora.Macro.mapM (rewriteFieldH fields) fields
    return .cons (kw "begin") (.cons make (.cons pred fs))
  | _ => failure

/-- lib/define-record.cora:52-53 `define-record` -/
def defineRecord : Cora.Macro.MacroFn := fun _ exp => do
  let e ← liftM (cdr exp)
  rewriteDefineRecord e

end Cora.Record
