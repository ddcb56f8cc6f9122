import Verif.Model.Reader
import Verif.Model.Macro
import Verif.Model.CodeGen
import Verif.Model.Compile
/-
lib/toc.cora:607-679: from the text of a source file to the text of its C file.
-/
open Spec Spec.Lang
namespace Cora.Toc

/-- data as the reader makes it (names and strings are bytes) as data of programs. Names and strings must be UTF-8, which the code
does not ask for. -/
def datumOf : Sexp → Option Datum
  | .int n => some (.int n)
  | .bool b => some (.bool b)
  | .nil => some .nil
  | .str b => (String.fromUTF8? ⟨b.toArray⟩).map .str
  | .sym b => (String.fromUTF8? ⟨b.toArray⟩).map fun s => .sym (.named s)
  | .cons a d => do some (.cons (← datumOf a) (← datumOf d))

/-- lib/toc.cora:607-617 `handle-import-eagerly`: the packages that are imported while compiling, in order. `none`: the
argument of `import` is no string, which ends the program (src/runtime.c:506-507). -/
def handleImports : Datum → Option (List String)
  | .cons (.sym (.named "package")) (.cons _ remain) => handleImports remain
  | .cons (.sym (.named "begin")) remain => handleImports remain
  | .cons (.cons (.sym (.named "export")) _) remain => handleImports remain
  | .cons (.cons (.sym (.named "import")) (.cons pkg .nil)) remain =>
    match pkg with
    | .str p => do some (p :: (← handleImports remain))
    | _ => none
  | _ => some []

/-- lib/toc.cora:624 the check of a form -/
def checkForm (exp : Datum) : Datum :=
  .list [kw "cora/lib/infer#check-type!", .list [kw "macroexpand", .list [kw "backquote", exp]], .list [kw "cora/lib/infer#tvar"]]

/-- lib/toc.cora:619-625 `split-type-and-code`: the checks and the code, in order. The accumulators are in reverse. -/
def split : Datum → List Datum → List Datum → Option (List Datum × List Datum)
  | .nil, type, code => some (type.reverse, code.reverse)
  | .cons (.cons (.sym (.named ":type")) exp) more, type, code => split more (.cons (kw "begin") exp :: type) code
  | .cons (.cons (.sym (.named ":declare")) exp) more, type, code => split more (.cons (kw "declare") exp :: type) code
  | .cons exp more, type, code => split more (checkForm exp :: type) (exp :: code)
  | _, _, _ => none

/-- lib/toc.cora:627-632 `extract-typecheck-body` -/
def extract (k : Datum → Option Datum) : Datum → Option Datum
  | .cons (.sym (.named "package")) (.cons name more) => do
    some (.cons (kw "package") (.cons name (← extract k more)))
  | .cons (.cons (.sym (.named "import")) (.cons pkg .nil)) more => do some (.cons (.list [kw "import", pkg]) (← extract k more))
  | .cons (.cons (.sym (.named "export")) symbols) more => do some (.cons (.cons (kw "export") symbols) (← extract k more))
  | .cons (.sym (.named "begin")) more => do some (.cons (kw "begin") (← extract k more))
  | other => k other

/-- lib/toc.cora:634-637 `generate-typecheck-code`; `check` is the value of `cora/lib/infer#*typecheck*` -/
def choose (check : Bool) (p : List Datum × List Datum) : Datum := .list (if check then p.1 ++ p.2 else p.2)

/-- lib/toc.cora:639-653 `split-type-and-code-toplevel` -/
def splitTop (check : Bool) : Datum → Option Datum
  | .cons (.sym (.named "package")) more =>
    extract (fun body => (split body [] []).map (choose check)) (.cons (kw "package") more)
  | .cons (.sym (.named "begin")) more =>
    extract (fun body => (split body [] []).map (choose check)) (.cons (kw "begin") more)
  | single => (split (.list [single]) [] []).map fun p => .cons (kw "begin") (choose check p)

mutual
/-- the form that lib/toc.cora:54-85 `parse` takes a datum for. Model/Compile starts from such forms; `none` stands for data
that is none (`(if a b)`, dotted lists, and so on), for which the code has some meaning or other. -/
def formOf : Datum → Option Core
  | .int n => some (.lit (.int n))
  | .bool b => some (.lit (.bool b))
  | .nil => some (.lit .nil)
  | .str s => some (.lit (.str s))
  | .sym x => some (.var x)
  | .cons (.sym (.named "quote")) (.cons x .nil) => some (.quote x)
  | .cons (.sym (.named "lambda")) (.cons args (.cons body .nil)) => do some (.lam (← Macro.symbols args) (← formOf body))
  | .cons (.sym (.named "if")) (.cons a (.cons b (.cons c .nil))) => do some (.ite (← formOf a) (← formOf b) (← formOf c))
  | .cons (.sym (.named "if")) _ => none
  | .cons (.sym (.named "do")) (.cons a (.cons b .nil)) => do some (.seq (← formOf a) (← formOf b))
  | .cons (.sym (.named "let")) (.cons (.sym x) (.cons b (.cons c .nil))) => do some (.bind x (← formOf b) (← formOf c))
  | .cons f args => do some (.app (← formOf f) (← formsOf args))
/-- `map` of it -/
def formsOf : Datum → Option (List Core)
  | .nil => some []
  | .cons a d => do some ((← formOf a) :: (← formsOf d))
  | _ => none
end

/-- what compiling depends on besides the file -/
structure Setting where
  /-- the macros and export lists after these packages were imported in this order, and the count of generated symbols after it -/
  known : List String → Nat → Option (Macro.Macros × Nat)
  /-- `cora/lib/infer#*typecheck*`; toc.cora:655 makes it false -/
  check : Bool
  /-- names of symbols, as `generate-sym` sees them -/
  nm : Spec.Lang.Sym → Bytes
  /-- what is in memory after the names that `generate-sym` writes -/
  junk : Nat → UInt8

/-- lib/toc.cora:657-664 `preprocess` and 672 `macroexpand`: the program in a file, as data. The first argument bounds the work; `k`
counts the generated symbols. -/
def expanded (T : Setting) (n : Nat) (t : Bytes) (k : Nat) : Option (Datum × Nat) := do
  let sexp ← datumOf (← Reader.readFile n n t)
  let (mt, k1) ← T.known (← handleImports sexp) k
  Macro.macroexpand mt n (← splitTop T.check sexp) k1

/-- the program in a file -/
def program (T : Setting) (n : Nat) (t : Bytes) (k : Nat) : Option (Core × Nat) := do
  let (d, k2) ← expanded T n t k
  some (← formOf d, k2)

/-- lib/toc.cora:666-677 `compile-to-c`: the text written for the text of a file. One symbol is generated first. -/
def compileToC (T : Setting) (n : Nat) (t : Bytes) (k : Nat) : Option (Bytes × Nat) := do
  let (e, k2) ← program T n t (k + 1)
  let (lams, k3) ← Compile.compile e k2
  let text ← Compile.generateC ⟨T.nm, T.junk, Compile.globalsOf [] e []⟩ lams
  some (text, k3)

end Cora.Toc
