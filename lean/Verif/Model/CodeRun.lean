import Verif.Model.CodeGen
/-
What the C functions of a generated file do when the runtime calls them: the statements of the part of C in Spec/CLang.lean, with
the functions and macros of the runtime that generated code uses (src/runtime.h, src/types.h) working on the machine of
Model/CompileMachine.lean.

Simplifications. A function of the runtime that changes the machine is called as a statement or as the initializer of a
declaration, where the order of evaluation does not matter; anywhere else it has no meaning here. After `coraReturn` or one of the
`coraCall`s nothing but `return` has a meaning. What `coraReturn` and the `coraCall`s do is left to the machine (`MAct`). Values
have types; what C would do with a value of the wrong type has no meaning. The table of symbols of a package is a list of
symbols.
-/
open Spec.Lang Spec.C
namespace Cora.Compile
variable {W : Type}

/-- C values: objects, numbers, strings, `co`, `co->gc`, the pointer `R`, arrays, pointers to functions, bindings and the number
of the package -/
inductive CV where
  | obj (v : MVal)
  | int (n : Int)
  | str (b : Bytes)
  | co
  | gc
  | regs
  | arr (vs : List MVal)
  | fn (label : Nat)
  | binding (x : Spec.Lang.Sym)
  | pkg

/-- a loaded file: its number, its table of symbols and its functions -/
structure Unit_ where
  unit : Nat
  table : List Spec.Lang.Sym
  funs : Bytes → Option Nat

/-- local variables, innermost first; `none`: not initialized -/
abbrev Locals := List (Bytes × Option CV)

def lookup (x : Bytes) : Locals → Option (Option CV)
  | [] => none
  | (y, v) :: r => if y = x then some v else lookup x r

/-- the objects among values -/
def objs : List CV → Option (List MVal)
  | [] => some []
  | .obj v :: r => do some (v :: (← objs r))
  | _ => none

/-- the names that are no local variables: constants (src/types.h), the number of the package and the functions of the file -/
def constant (u : Unit_) (x : Bytes) : Option CV :=
  if x = txt "Nil" then some (.obj .nil)
  else if x = txt "True" then some (.obj (.bool true))
  else if x = txt "False" then some (.obj (.bool false))
  else if x = txt "packageID" then some .pkg
  else (u.funs x).map .fn

/-- functions of the runtime that compute a value: src/runtime.h:190-204, 218-222, src/types.h:93, src/types.c:134-136, 192-212 -/
def pureCall (u : Unit_) (s : Mach W) (f : Bytes) (args : List CV) : Option CV :=
  if f = txt "globalRef" then
    match args with
    | [.co, .binding x] => (s.world.globals x).map .obj
    | _ => none
  else if f = txt "getBinding" then
    match args with
    | [.co, .pkg, .int (.ofNat i)] => u.table[i]?.map .binding
    | _ => none
  else if f = txt "closureRef" then
    match args with
    | [.obj v, .int (.ofNat i)] => (capturedOf v)[i]?.map .obj
    | _ => none
  else if f = txt "MAKE_NUMBER" then
    match args with
    | [.int n] => some (.obj (.int n))
    | _ => none
  else if f = txt "makeCString" then
    match args with
    | [.gc, .str b] => (String.fromUTF8? ⟨(makeCString b).toArray⟩).map fun s => .obj (.str s)
    | _ => none
  else if f = txt "makeNative" then
    match args with
    | .gc :: .int (.ofNat nframe) :: .fn l :: .int (.ofNat nargs) :: .int n :: frees =>
      if n = frees.length then (objs frees).map fun vs => .obj (.clo nargs ⟨u.unit, l, nframe⟩ vs) else none
    | _ => none
  else none

mutual
/-- the value of an expression that changes nothing -/
def value (u : Unit_) (env : Locals) (s : Mach W) : Expr → Option CV
  | .id x =>
    match lookup x env with
    | some v => v
    | none => constant u x
  | .num n => some (.int n)
  | .neg n => some (.int (-n))
  | .str b => some (.str b)
  | .call f args =>
    match lookup f env with
    | some _ => none
    | none =>
      match values u env s args with
      | some vs => pureCall u s f vs
      | none => none
  | .index x i =>
    match lookup x env, value u env s i with
    | some (some .regs), some (.int (.ofNat i)) => some (.obj (s.stack (s.ctx.bp + i)))
    | _, _ => none
  | .arrow x f =>
    match lookup x env with
    | some (some .co) => if f = txt "res" then some (.obj s.res) else if f = txt "gc" then some .gc else none
    | _ => none
  | .dot e f =>
    match value u env s e with
    | some (.binding x) => if f = txt "name" then some (.obj (.sym x)) else none
    | _ => none
  | .mul _ _ => none
  | .eq a b =>
    match value u env s a, value u env s b with
    | some (.obj (.bool true)), some (.obj v) => some (.int (if v.isTrue then 1 else 0))
    | _, _ => none
def values (u : Unit_) (env : Locals) (s : Mach W) : List Expr → Option (List CV)
  | [] => some []
  | e :: es =>
    match value u env s e, values u env s es with
    | some v, some vs => some (v :: vs)
    | _, _ => none
end

/-- src/types.h:93-115, src/runtime.h:206-214, 233-240: the functions and macros for the primitives -/
def primOf (f : Bytes) : Option String :=
  ["set", "car", "cdr", "cons", "cons?", "+", "-", "*", "/", "=", ">", "<", "gensym", "symbol?", "not", "integer?", "string?"].find?
    fun p => f = txt (builtinName p)

/-- their arguments: `primSet` and `primGenSym` are given `co`, `makeCons` is given `co->gc` -/
def primArgs (p : String) (args : List CV) : Option (List MVal) :=
  if p = "set" ∨ p = "gensym" then
    match args with
    | .co :: r => objs r
    | _ => none
  else if p = "cons" then
    match args with
    | .gc :: r => objs r
    | _ => none
  else objs args

/-- the initializer of a declaration -/
def initial (O : Outside W) (u : Unit_) (env : Locals) (s : Mach W) (e : Expr) : Option (CV × Mach W) :=
  match e with
  | .call f args =>
    match lookup f env, primOf f with
    | none, some p => do
      let vs ← values u env s args
      let os ← primArgs p vs
      let (v, w) ← cprim O p os s.world
      some (.obj v, { s with world := w })
    | _, _ => (value u env s e).map fun v => (v, s)
  | _ => (value u env s e).map fun v => (v, s)

/-- a call as a statement: src/runtime.h:75-186; afterwards the machine has something to do, or not -/
def statement (u : Unit_) (env : Locals) (s : Mach W) (e : Expr) : Option (Mach W × Option MAct) :=
  match e with
  | .call f args =>
    if lookup f env = none ∧ f = txt "coraReturn" then do
      match ← values u env s args with
      | [.co, .obj v] => some (s, some (.ret v))
      | _ => none
    else if lookup f env = none ∧ f = txt "coraCall" then do
      match ← values u env s args with
      | [.co, .obj g, .int n, .arr vs] => if n = vs.length then some (s, some (.call g vs)) else none
      | _ => none
    else if lookup f env = none ∧ f = txt "saveCont" then do
      match ← values u env s args with
      | [.co, .fn l, .int (.ofNat label), .regs] =>
        some ({ s with frames := ⟨.code u.unit l, label, s.ctx.bp, s.ctx.sp⟩ :: s.frames }, none)
      | _ => none
    else if lookup f env = none ∧ f ∈ [txt "coraCall0", txt "coraCall1", txt "coraCall2", txt "coraCall3", txt "coraCall4"] then do
      match ← values u env s args with
      | .co :: .obj g :: r => do
        let vs ← objs r
        if f = txt "coraCall" ++ Reader.decDigits vs.length then some (s, some (.call g vs)) else none
      | _ => none
    else (value u env s e).map fun _ => (s, none)
  | _ => (value u env s e).map fun _ => (s, none)

/-- `R[i] = e;` and `co->ctx.sp = R;` -/
def assign (u : Unit_) (env : Locals) (s : Mach W) (l e : Expr) : Option (Mach W) :=
  match l with
  | .index x i =>
    match lookup x env, value u env s i, value u env s e with
    | some (some .regs), some (.int (.ofNat i)), some (.obj v) =>
      some { s with stack := fun p => if p = s.ctx.bp + i then v else s.stack p }
    | _, _, _ => none
  | .dot (.arrow x f) h =>
    match lookup x env, value u env s e with
    | some (some .co), some .regs =>
      if f = txt "ctx" ∧ h = txt "sp" then some { s with ctx := { s.ctx with sp := s.ctx.bp } } else none
    | _, _ => none
  | _ => none

/-- how statements end: with `return`, or at the end of the block -/
inductive Ended (W : Type) where
  | returned (s : Mach W) (a : MAct)
  | fell (s : Mach W) (todo : Option MAct)

/-- run statements; `todo`: what `coraReturn` or `coraCall` left to do -/
def exec (O : Outside W) (u : Unit_) : Block → Locals → Mach W → Option MAct → Option (Ended W)
  | .done, _, s, todo => some (.fell s todo)
  | .ret _, _, s, some a => some (.returned s a)
  | .ret _, _, _, none => none
  | _, _, _, some _ => none
  | .decl _ x e k, env, s, none => do
    let (v, s) ← initial O u ((x, none) :: env) s e
    exec O u k ((x, some v) :: env) s none
  | .ptr _ _ _ _, _, _, none => none
  | .array _ x n es k, env, s, none => do
    let vs ← objs (← values u ((x, none) :: env) s es)
    if vs.length = n then exec O u k ((x, some (.arr vs)) :: env) s none else none
  | .assign l e k, env, s, none => do
    let s ← assign u env s l e
    exec O u k env s none
  | .expr e k, env, s, none => do
    let (s, todo) ← statement u env s e
    exec O u k env s todo
  | .ite e a b k, env, s, none => do
    match ← value u env s e with
    | .int n =>
      match ← (if n ≠ 0 then exec O u a env s none else exec O u b env s none) with
      | .returned s act => some (.returned s act)
      | .fell s todo => exec O u k env s todo
    | _ => none
  | .only _ _ _, _, _, none => none

/-- the parameters of a function -/
def paramVals (s : Mach W) : Locals := [(txt "co", some .co), (txt "label", some (.int s.ctx.label)), (txt "R", some .regs)]

/-- run a function of the file: the case for the label. (A case that does not end with `return` would go on with the next
one; it has no meaning here.) -/
def runBody (O : Outside W) (u : Unit_) (s : Mach W) : Body → Option (Mach W × MAct)
  | .plain _ => none
  | .switch e cs => do
    match ← value u (paramVals s) s e with
    | .int n =>
      match ← cs.find? (fun c => (c.1 : Int) = n) with
      | (_, b) =>
        match ← exec O u b (paramVals s) s none with
        | .returned s a => some (s, a)
        | .fell _ _ => none
    | _ => none

/-! ### the entry function -/

/-- what the entry function has done: the table as far as it is filled, and the function to run -/
structure Loading where
  size : Nat := 0
  slots : List (Option Spec.Lang.Sym) := []
  added : Bool := false
  fn : Option Nat := none
  label : Option Nat := none

/-- the statements of the entry function; src/runtime.c:320-323, 1107-1116, src/types.c:150-168, 174-186. The package gets its
number when the file is loaded for the first time, by this machine or another. -/
def entry (funs : Bytes → Option Nat) : Block → Loading → Option Loading
  | .done, l => some l
  | .only (.eq (.id a) (.neg 1)) (.assign (.id b) (.call f []) .done) k, l =>
    if a = txt "packageID" ∧ b = txt "packageID" ∧ f = txt "packageIDAlloc" then entry funs k l else none
  | .ptr t x (.call m [.mul (.call z [.id t']) (.num n)]) k, l =>
    if t = txt "Binding" ∧ x = txt "__symbolTable" ∧ m = txt "malloc" ∧ z = txt "sizeof" ∧ t' = txt "Binding" then
      entry funs k { l with size := n, slots := List.replicate n none }
    else none
  | .assign (.index x (.num i)) (.call b [.id c, .call n [.str name]]) k, l =>
    if x = txt "__symbolTable" ∧ b = txt "bindSymbol" ∧ c = txt "co" ∧ n = txt "intern" ∧ i < l.size then
      match String.fromUTF8? ⟨(makeCString name).toArray⟩ with
      | some s => entry funs k { l with slots := l.slots.set i (some (.named s)) }
      | none => none
    else none
  | .expr (.call a [.id c, .id p, .id t]) k, l =>
    if a = txt "addPackage" ∧ c = txt "co" ∧ p = txt "packageID" ∧ t = txt "__symbolTable" then
      entry funs k { l with added := true }
    else none
  | .assign (.dot (.arrow c x) f) (.id g) k, l =>
    if c = txt "co" ∧ x = txt "ctx" ∧ f = txt "fn" then
      match funs g with
      | some i => entry funs k { l with fn := some i }
      | none => none
    else none
  | .assign (.dot (.arrow c x) f) (.num n) k, l =>
    if c = txt "co" ∧ x = txt "ctx" ∧ f = txt "label" then entry funs k { l with label := some n } else none
  | _, _ => none

/-! ### a file -/

/-- the functions of a file, last one first: those that are declared `static` -/
def functions : List Item → List (Bytes × Body)
  | [] => []
  | .func true f b :: r => (f, b) :: functions r
  | _ :: r => functions r

/-- the number of a function: functions are told apart by their place in the file, counted from the end -/
def funNumber (file : List Item) (f : Bytes) : Option Nat :=
  ((functions file).reverse.findIdx? fun p => p.1 = f)

/-- the entry function -/
def findEntry : List Item → Option Block
  | [] => none
  | .func false f (.plain b) :: r => if f = txt "entry" then some b else findEntry r
  | _ :: r => findEntry r

/-- all or none -/
def allSome {α : Type} : List (Option α) → Option (List α)
  | [] => some []
  | some a :: r => (allSome r).map (a :: ·)
  | none :: _ => none

/-- src/runtime.c:325-352 `load-so`: the table of the file and the function that its entry function starts -/
def loadFile (file : List Item) : Option (List Spec.Lang.Sym × Nat) := do
  let b ← findEntry file
  let l ← entry (funNumber file) b {}
  let table ← allSome l.slots
  let fn ← l.fn
  if l.added ∧ l.label = some 0 then some (table, fn) else none

end Cora.Compile
