import Verif.Model.Symbols
/-
Compiled libraries, machines and threads. The C file of a library has a static number (`packageID`), which it gets at its first start; every machine
has a table from these numbers to the variables that the library mentions. The number of the next library is a static variable of the runtime.
All threads share the static variables; each has a machine of its own (`new-proc`).

Simplifications. The numbers do not reach 2^31. `co->pkgs` and `co->globals`, which `coraNew` (src/runtime.c:55-65) leaves as it finds them in memory, are
empty vectors, as in memory fresh from the system. An access to a static variable is one step. `none`: the program reads or writes outside of
a table, or it is no step that this thread can take.
-/
namespace Cora.Pkg

/-- src/runtime.h:36-39 `Binding`: the symbol and the place of its variable. A table of them -/
abbrev Table := List (Key × Nat)

/-- src/runtime.h:41-57 `struct Cora`, the fields used here -/
structure Machine where
  globals : Globals
  pkgs : List (Option Table)

/-- src/runtime.c:1109-1116 `addPackage`; the first `none`: the assertion -/
def addPackage (pkgs : List (Option Table)) (id : Int) (t : Table) : Option (List (Option Table)) :=
  if id < 0 then none
  else some ((pkgs ++ List.replicate (id.toNat + 1 - pkgs.length) none).set id.toNat (some t))

/-- lib/toc.cora:572-583: the lines `__symbolTable[i] = bindSymbol(co, intern("..."));` of a library -/
def bindAll (g : Globals) : List Key → Globals × Table
  | [] => (g, [])
  | k :: r =>
    let (g, i) := bindSymbol g k
    let (g, t) := bindAll g r
    (g, (k, i) :: t)

/-- src/runtime.h:190-193 `getBinding` -/
def getBinding (m : Machine) (id : Int) (slot : Nat) : Option (Key × Nat) :=
  if id < 0 then none
  else
    match m.pkgs[id.toNat]? with
    | some (some t) => t[slot]?
    | _ => none

/-- where a thread is inside of `entry` (lib/toc.cora:571-584, as in lib/toc.c:152-289) of library `l` -/
inductive Where where
  | outside
  /-- it has found `packageID == -1` -/
  | alloc (l : Nat)
  /-- inside of `packageIDAlloc`: the number has been read -/
  | got (l : Nat) (v : Int)
  /-- the number has been increased -/
  | wrote (l : Nat) (v : Int)
  /-- `packageID` is there; the table comes next -/
  | table (l : Nat)

structure State where
  /-- src/runtime.c:317 -/
  next : Int
  /-- lib/toc.cora:595: the number of each library -/
  ids : Nat → Int
  machine : Nat → Option Machine
  at' : Nat → Where

inductive Act where
  /-- thread `t` starts and makes its machine -/
  | make (t : Nat)
  /-- thread `t` loads library `l`, and goes on, step by step -/
  | enter (t l : Nat)
  | read (t : Nat)
  | write (t : Nat)
  | assign (t : Nat)
  | finish (t : Nat)
  /-- `set` and others with a symbol -/
  | op (t : Nat) (o : GOp)
  /-- the code of library `l` sets the variable with this number in its table -/
  | store (t l slot : Nat) (v : Obj)

def State.move (s : State) (t : Nat) (w : Where) : State := { s with at' := fun u => if u = t then w else s.at' u }
def State.put (s : State) (t : Nat) (m : Machine) : State := { s with machine := fun u => if u = t then some m else s.machine u }

def State.start : State := ⟨0, fun _ => -1, fun _ => none, fun _ => .outside⟩

/-- One step. `tables l` are the names of the variables that library `l` mentions (lib/toc.cora:572-583). -/
def step (tables : Nat → List Key) (s : State) : Act → Option State
  | .make t => -- src/runtime.c:1062-1065
    match s.machine t with
    | none => some (s.put t ⟨Globals.init, []⟩)
    | some _ => none
  | .enter t l => -- if (packageID == -1)
    match s.at' t, s.machine t with
    | .outside, some _ => some (s.move t (if s.ids l = -1 then .alloc l else .table l))
    | _, _ => none
  | .read t => -- src/runtime.c:322 return packageID++
    match s.at' t with
    | .alloc l => some (s.move t (.got l s.next))
    | _ => none
  | .write t =>
    match s.at' t with
    | .got l v => some ({ s with next := v + 1 }.move t (.wrote l v))
    | _ => none
  | .assign t => -- packageID = packageIDAlloc();
    match s.at' t with
    | .wrote l v => some ({ s with ids := fun k => if k = l then v else s.ids k }.move t (.table l))
    | _ => none
  | .finish t => -- the table; addPackage(co, packageID, __symbolTable);
    match s.at' t, s.machine t with
    | .table l, some m =>
      let b := bindAll m.globals (tables l)
      (addPackage m.pkgs (s.ids l) b.2).map fun p => (s.put t ⟨b.1, p⟩).move t .outside
    | _, _ => none
  | .op t o =>
    match s.at' t, s.machine t with
    | .outside, some m => (o.run m.globals).map fun g => s.put t { m with globals := g }
    | _, _ => none
  | .store t l slot v => -- primSet(co, getBinding(co, packageID, slot).name, v)
    match s.at' t, s.machine t with
    | .outside, some m =>
      (getBinding m (s.ids l) slot).bind fun b => (primSet m.globals (.interned b.1) v).map fun g => s.put t { m with globals := g.1 }
    | _, _ => none

def run (tables : Nat → List Key) : State → List Act → Option State
  | s, [] => some s
  | s, a :: r => (step tables s a).bind fun s => run tables s r

/-- lib/toc.cora:304: `globalRef(co, getBinding(co, packageID, slot))` in the code of library `l`, run by thread `t` -/
def load (s : State) (t l slot : Nat) : Option Obj :=
  (s.machine t).bind fun m => (getBinding m (s.ids l) slot).bind fun b => globalRef m.globals b.2

end Cora.Pkg
