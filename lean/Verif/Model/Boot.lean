import Verif.Model.Toc
import Verif.Model.Peval
/-
The C files in the repository that are compiled from the language itself: init.c from init.cora and lib/toc.c from lib/toc.cora
(test/bootstrap.cora, Makefile:64-71). What compiling them depends on, and the compiler with the partial evaluator switched on.
-/
open Spec Spec.Lang
namespace Cora.Boot

/-- lib/toc.cora:517-519 `rewrite-->macro` -/
def arrow : Datum → Datum → Option Datum
  | obj, .nil => some obj
  | obj, .cons hd more => arrow (.list [hd, obj]) more
  | _, _ => none

/-- lib/toc.cora:521-524 the macro `->` -/
def arrowMacro (e : Datum) : Option Datum := do arrow (← Macro.cadr e) (← Macro.cddr e)

/-- src/types.c:170-190 `symbolStr`, as it is built for the bootstrap (`_BOOTSTRAP_TEST_`, Makefile:66): generated symbols have a
number instead of an address -/
def names : Spec.Lang.Sym → Bytes
  | .named s => Compile.bytesOf s
  | .gen n => 35 :: Reader.decDigits n ++ [37]

/-- init.cora:36 `*protect-symbol*`: the first symbol that is generated -/
def protect : Spec.Lang.Sym := .gen 0

/-- The macros and export lists that init.cora is compiled with: the macros of init.cora itself (already loaded), and no export
lists, as the file imports nothing. -/
def initMacros : Macro.Macros where
  fn := fun | .named s => Macro.stdMacro s | .gen _ => none
  protect := protect
  ex := fun _ => []

/-- the export list of a package -/
def exported (names : List String) : List Spec.Lang.Sym := names.map .named

/-- The export lists of the packages that lib/toc.cora imports: init.cora:406-416; lib/toc/internal.c:83-90; lib/io.c:137-143 and
lib/hash-h.c:72-77 -/
def tocExports : String → List Spec.Lang.Sym
  | "cora/init" => exported ["cadr", "caar", "cdar", "cddr", "caddr", "cadddr", "cdddr", "pair?", "atom?", "boolean?", "number?",
      "null?", "string-append", "intern", "symbol->string", "vector", "vector?", "vector-set!", "vector-ref", "vector-length",
      "bytes", "bytes-length", "read-file-as-sexp", "value", "value-or", "apply", "load-so", "import", "load", "try", "throw",
      "reverse", "map", "macroexpand", "elem?", "length", "filter", "append"]
  | "cora/lib/toc/internal" => exported ["generate-str", "generate-sym", "generate-num", "escape-str"]
  | "cora/lib/io" => exported ["display", "open-output-file", "close-output-file", "read-all", "copy", "write-bytes"]
  | "cora/lib/hash-h" => exported ["mod", "hash-to-number"]
  | _ => []

/-- What lib/toc.cora is compiled with: also the macro that it defines itself, since the compiler that runs is that file (already loaded).
Macros that the file does not use are left out. -/
def tocMacros : Macro.Macros where
  fn := fun | .named "->" => some fun _ e => liftM (arrowMacro e) | .named s => Macro.stdMacro s | .gen _ => none
  protect := protect
  ex := tocExports

/-- compiling with the given macros: all packages are already imported (src/runtime.c:509-514), and the memory after names (which
`generate-sym` never shows, C38) is zero; toc.cora:655 -/
def setting (mt : Macro.Macros) : Toc.Setting where
  known := fun _ k => some (mt, k)
  check := false
  nm := names
  junk := fun _ => 0

/-- lib/toc.cora:666-677 `compile-to-c` with init.cora:309-312 `macroexpand` as it is after lib/peval.cora is loaded (main.c:106,
lib/eval.cora:3): the expanded program is partially evaluated. Simplified: the calls of `macroexpand` inside `match`
(init.cora:160-240) do not evaluate; the result is evaluated as a whole. -/
def compileToC (T : Toc.Setting) (n : Nat) (t : Bytes) (k : Nat) : Option (Bytes × Nat) := do
  let (e, k2) ← Toc.program T n t (k + 1)
  let e ← Peval.peval n [] e
  let (lams, k3) ← Compile.compile e k2
  let text ← Compile.generateC ⟨T.nm, T.junk, Compile.globalsOf [] e []⟩ lams
  some (text, k3)

end Cora.Boot
