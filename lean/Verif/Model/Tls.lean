import Verif.Model.ListLib
import Verif.Spec.Local
/-
Model of the thread-local variables: lib/sys.cora `thread-local-get`, `thread-local-set` and the symbol of a machine in
src/runtime.c. Values are those of the list library, `=` is equality of values (see C04).
-/
open Spec
namespace Cora.Tls

/-- src/runtime.c:983-989 `primVMSymbolForTLS`: the name of the symbol is the address of the machine as `%p` prints it
(with the C library of Linux: `0x` and the digits in base sixteen). `none`: the assertion that it is shorter than 20 bytes
fails. -/
def symbolName (m : Nat) : Option String :=
  let dest := "0x" ++ String.ofList (Nat.toDigits 16 m)
  if dest.length < 20 then some dest else none

/-- the values of the global variables, by name -/
abbrev Globals (α : Type) := String → Option (V α)

/-- src/runtime.c:1105 the machine starts with no variables (the rest of `coraNew` is not modelled here) -/
def start {α : Type} (m : Nat) (g : Globals α) : Option (Globals α) := do
  let s ← symbolName m
  some fun x => if x = s then some .nil else g x

/-- `car` -/
def car {α : Type} : V α → Option (V α)
  | .cons a _ => some a
  | _ => none

/-- `cdr` -/
def cdr {α : Type} : V α → Option (V α)
  | .cons _ d => some d
  | _ => none

/-- lib/sys.cora:11-15 `thread-local-set` -/
def threadLocalSet {α : Type} [DecidableEq α] (m : Nat) (key val : V α) (g : Globals α) : Option (Globals α) := do
  let var ← symbolName m
  let oldVal ← g var
  let (rest, ()) ← ListLib.filter (σ := Unit) (fun x s => (car x).map fun c => (!decide (key = c), s)) oldVal ()
  let newVal := V.cons (.cons key val) rest
  some fun x => if x = var then some newVal else g x

/-- lib/sys.cora:5-9 `thread-local-get`. Outside `none`: a failing primitive; inside `none`: the error "get non-exist key". -/
def threadLocalGet {α : Type} [DecidableEq α] (m : Nat) (key : V α) (g : Globals α) : Option (Option (V α)) := do
  let var ← symbolName m
  let find ← ListLib.assq key (← g var)
  if find = .nil then some none else some (some (← cdr find))

/-- a history, latest event first -/
def run {α : Type} [DecidableEq α] : List (Local.Event α) → Option (Globals α)
  | [] => some fun _ => none
  | .start m :: r => do start m (← run r)
  | .set m key val :: r => do threadLocalSet m key val (← run r)

end Cora.Tls
