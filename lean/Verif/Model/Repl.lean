import Verif.Model.Script
import Verif.Model.Toc
import Verif.Model.Peval
import Verif.Model.Interp
/-
Model of /repo/main.c:6-45 with all its parts: what reading a form, expanding it and evaluating it does to the process. It puts together
the reader (Model/Reader), the expander (Model/Macro), the partial evaluator (Model/Peval), which lib/eval.cora:3 loads, and the
interpreter (Model/Interp).
-/
open Spec Spec.Lang
namespace Cora.Repl
variable {W : Type}

/-- the strings at the start of a list. The code would trap at something else. -/
def texts : Datum → List String
  | .cons (.str s) d => s :: texts d
  | _ => []

/-- the symbols at the start of a list. The code compares with whatever is in the list (init.cora:109-114 `elem?`). -/
def syms : Datum → List Spec.Lang.Sym
  | .cons (.sym x) d => x :: syms d
  | _ => []

/-- src/runtime.c:296-315 `builtinValueOr` of a variable with data and the empty list -/
def valueOr (w : Interp.World W) (x : Spec.Lang.Sym) : Datum := ((w.globals x).bind Interp.toDatum).getD .nil

/-- lib/eval.cora:28-34: what the interpreter uses of `cora/init#*imported*` … -/
def imported (w : Interp.World W) : List String := texts (valueOr w (.named "cora/init#*imported*"))

/-- … and of the variables `…#*ns-export*` -/
def exported (w : Interp.World W) : Macro.Exports := fun p => syms (valueOr w (.named (p ++ ("#" ++ "*ns-export*"))))

/-- What is not modelled further: the table of macros as a function of the state of the process, arithmetic, and functions of the
outside, such as compiled ones and `import`. `fixed` as in `Interp.Setting`: not in the code. -/
structure Base (W : Type) where
  macros : Interp.World W → Macro.Macros
  prim : String → List Interp.Val → W → Option (Interp.Val × W)
  native : Nat → List Interp.Val → Interp.World W → Option (Interp.Val × Interp.World W)

/-- The setting in which a form is interpreted. A simplification: what a form imports counts from the next form on, where in the code it
counts at once. -/
def Base.setting (B : Base W) (fixed : Spec.Lang.Sym → Bool) (w : Interp.World W) : Interp.Setting W :=
  ⟨exported w, imported w, B.prim, B.native, fixed⟩

/-- the process: global variables and the outside, the count of generated symbols, and the results of forms so far, which main.c:40-43
prints if the forms come from the standard input -/
structure State (W : Type) where
  world : Interp.World W
  count : Nat
  results : List Interp.Val

/-- init.cora:309-311: the program that a form is expanded to, and the count of generated symbols after it. The partial evaluator comes
after it; what the expansion of `match` expands on its way is not evaluated partially here (it is in the code). -/
def program (mt : Macro.Macros) (r : Nat) (d : Datum) (k : Nat) : Option (Core × Nat) := do
  let (e, k) ← Macro.macroexpand mt r d k
  some (← Toc.formOf e, k)

/-- main.c:24-38 with init.cora:309-312: expand the form, evaluate it partially, and interpret the result in the empty environment.
`r` bounds the work of expanding, `n` that of interpreting; `none` is a trap or that a bound is exceeded. -/
def step (B : Base W) (r n : Nat) (s : State W) (v : Sexp) : Option (State W) := do
  let d ← Toc.datumOf v
  let (e, k) ← program (B.macros s.world) r d s.count
  let c ← Peval.peval r [] e
  let (u, w) ← Interp.eval (B.setting (fun _ => false) s.world) n c.form [] s.world
  some ⟨w, k, s.results ++ [u]⟩

/-- src/types.c `makeString`: bytes as a string. They must be UTF-8, which the code does not ask for. -/
def text (b : Bytes) : String := (String.fromUTF8? ⟨b.toArray⟩).getD ""

/-- a list of strings -/
def strings : List String → Interp.Val
  | [] => .nil
  | s :: r => .cons (.str s) (strings r)

/-- main.c:78 -/
def setArgs (s : State W) (args : List Bytes) : State W :=
  { s with world := Interp.setGlobal s.world (.named "*command-line-args*") (strings (args.map text)) }

end Cora.Repl
