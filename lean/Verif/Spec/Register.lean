import Verif.Spec.Sexp
/-
What registering a library of C functions does: every function becomes the value of a variable of the package, and the package exports
their names.
-/
namespace Spec.Reg

abbrev Bytes := List UInt8

/-- a C function and the name and number of arguments it is registered with -/
structure Fn where
  name : Bytes
  code : Nat
  arity : Nat
  deriving DecidableEq

/-- the values that matter here -/
inductive Value where
  | fn (code arity : Nat)
  | names (l : List Bytes)
  | other (n : Nat)
  deriving DecidableEq

/-- the global variables -/
abbrev Vars := Bytes → Option Value

/-- the variable `x` of a package -/
def qualify (pkg x : Bytes) : Bytes := pkg ++ ascii "#" ++ x

/-- the names that a package exports, in the variable `*ns-export*` of it -/
def exported (g : Vars) (pkg : Bytes) : List Bytes :=
  match g (qualify pkg (ascii "*ns-export*")) with
  | some (.names l) => l
  | _ => []

/-- the variable that `x` refers to in a file that imports just that package -/
def refers (g : Vars) (pkg x : Bytes) : Bytes := if x ∈ exported g pkg then qualify pkg x else x

/-- the function that a library has under a name: if there are several, the last -/
def lastNamed (lib : List Fn) (x : Bytes) : Option Fn := lib.reverse.find? fun f => f.name = x

end Spec.Reg
