import Verif.Model.Macro
/-
The table of macros, /repo/init.cora:35-58, and the expander with it. A macro is a function of the language; here it is a function on
data that can make symbols, call the expander, and trap.
-/
open Spec.Lang
namespace Cora.Macro

/-- the value of `*macros*`: names with functions -/
abbrev Table := List (Datum × MacroFn)

/-- init.cora:37-39 `add-to-*macros*`, which a `defmacro` calls (90-96) -/
def addToMacros (n : Datum) (f : MacroFn) (tb : Table) : Table := (n, f) :: tb

/-- init.cora:46-58 `macroexpand1-h` -/
def macroexpand1H (mx : Datum → M Datum) (exp : Datum) : Table → M Datum
  | [] => pure exp
  | item :: macros =>
    match exp with
    | .cons h _ => if h = item.1 then item.2 mx exp else macroexpand1H mx exp macros
    | _ => macroexpand1H mx exp macros

mutual
/-- init.cora:74-88 `macroexpand-boot` with the table -/
def expandTable (tb : Table) (protect : Sym) (ex : Exports) : Nat → Datum → M Datum
  | 0, _ => failure
  | n + 1, .cons h t =>
    if h = .sym protect then return t
    else if h = kw "lambda" then do
      let ps ← liftM (car t)
      let b ← liftM (cadr t)
      let b' ← expandTable tb protect ex n b
      return .list [kw "lambda", ps, b']
    else if h = kw "quote" then return .cons h t
    else do
      let exp1 ← macroexpand1H (macroexpandTable tb protect ex n) (.cons h t) tb
      if exp1 = .cons h t then mapM (expandTable tb protect ex n) exp1 else expandTable tb protect ex n exp1
  | _ + 1, x => return x
/-- init.cora:309-312 `macroexpand` -/
def macroexpandTable (tb : Table) (protect : Sym) (ex : Exports) : Nat → Datum → M Datum
  | 0, _ => failure
  | n + 1, e => do
    let e1 ← expandTable tb protect ex n e
    liftM (nsParse ex [] "" [] e1)
end

end Cora.Macro
