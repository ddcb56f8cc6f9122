import Verif.Spec.Lang
/-
What names refer to inside a package.
-/
namespace Spec.Lang

/-- the text of a symbol; that of a generated one starts with `#` -/
def Sym.text : Sym → String
  | .named s => s
  | .gen n => "#" ++ toString n

/-- names with `#` in them already say which package they belong to -/
def Sym.qualified (x : Sym) : Prop := '#' ∈ x.text.toList

instance (x : Sym) : Decidable x.qualified := inferInstanceAs (Decidable (_ ∈ _))

/-- the name of a primitive -/
def Sym.primitive : Sym → Bool
  | .named s => (primArity s).isSome
  | .gen _ => false

/-- the variable `x` of package `pkg` -/
def ofPackage (pkg : String) (x : Sym) : Sym := .named (pkg ++ ("#" ++ x.text))

/-- the variable of this package; outside of packages `pkg` is empty -/
def own (pkg : String) (x : Sym) : Sym := if pkg = "" ∨ x.qualified then x else ofPackage pkg x

/-- what a global name refers to: what the first package in `scope` that exports it means by it, or the variable of this
package. `exported p` are the names that package `p` exports. -/
def resolveGlobal (exported : String → List Sym) (pkg : String) (scope : List String) (x : Sym) : Sym :=
  match scope.find? fun p => x ∈ exported p with
  | some p => ofPackage p x
  | none => own pkg x

/-- what `x` refers to: a local variable, a primitive or a global variable -/
def resolve (exported : String → List Sym) (pkg : String) (scope : List String) (locals : List Sym) (x : Sym) : Sym :=
  if x ∈ locals then x
  else if x.primitive then x
  else resolveGlobal exported pkg scope x

/-- the packages that a form imports for the forms after it: `(import "p")` -/
def Core.imports : Core → List String
  | .app (.var (.named "import")) [.lit (.str p)] => [p]
  | _ => []

mutual
/-- a form with every variable replaced by what it refers to; `(import "p")` before a form puts `p` in front of the
packages searched in it -/
def Core.resolve (ex : String → List Sym) (pkg : String) (scope : List String) (locals : List Sym) : Core → Core
  | .lit c => .lit c
  | .quote d => .quote d
  | .var x => .var (Lang.resolve ex pkg scope locals x)
  | .lam ps b => .lam ps (b.resolve ex pkg scope (ps ++ locals))
  | .ite a b c => .ite (a.resolve ex pkg scope locals) (b.resolve ex pkg scope locals) (c.resolve ex pkg scope locals)
  | .seq a b => .seq (a.resolve ex pkg scope locals) (b.resolve ex pkg (a.imports ++ scope) locals)
  | .bind x e b => .bind x (e.resolve ex pkg scope locals) (b.resolve ex pkg scope (x :: locals))
  | .app f args => .app (f.resolve ex pkg scope locals) (Core.resolves ex pkg scope locals args)
def Core.resolves (ex : String → List Sym) (pkg : String) (scope : List String) (locals : List Sym) :
    List Core → List Core
  | [] => []
  | c :: r => c.resolve ex pkg scope locals :: Core.resolves ex pkg scope locals r
end

/-- a form at top level: a definition or an expression -/
inductive Top where
  | define (x : Sym) (e : Core)
  | expr (e : Core)

def Top.form : Top → Datum
  | .define x e => .list [kw "def", .sym x, e.form]
  | .expr e => e.form

def Top.imports : Top → List String
  | .define _ _ => []
  | .expr e => e.imports

/-- a top level form with its names resolved: a definition sets the variable of this package -/
def Top.resolve (ex : String → List Sym) (pkg : String) (scope : List String) : Top → Core
  | .define x e => .app (.var (.named "set")) [.quote (.sym (own pkg x)), e.resolve ex pkg scope []]
  | .expr e => e.resolve ex pkg scope []

/-- top level forms in order -/
def resolveTops (ex : String → List Sym) (pkg : String) (scope : List String) : Top → List Top → Core
  | t, [] => t.resolve ex pkg scope
  | t, t' :: ts => .seq (t.resolve ex pkg scope) (resolveTops ex pkg (t.imports ++ scope) t' ts)

/-- a form at the start of a package: `(import "p")` or `(export x y …)` -/
inductive Header where
  | import_ (p : String)
  | export_ (es : List Sym)

def Header.form : Header → Datum
  | .import_ p => .list [kw "import", .str p]
  | .export_ es => .cons (kw "export") (.list (es.map .sym))

/-- the packages imported, in order -/
def headerImports : List Header → List String
  | [] => []
  | .import_ p :: hs => p :: headerImports hs
  | .export_ _ :: hs => headerImports hs

/-- the names exported by the last `export` -/
def headerExports : List Header → List Sym → List Sym
  | [], es => es
  | .import_ _ :: hs, es => headerExports hs es
  | .export_ es :: hs, _ => headerExports hs es

end Spec.Lang
