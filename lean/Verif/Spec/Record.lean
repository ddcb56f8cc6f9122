import Verif.Spec.Lang
/-
What a record declaration promises, in terms of a library of vectors.
-/
namespace Spec.Lang
variable {W : Type}

/-- a field: its name and, if asked for, a function to read it and a function to set it -/
inductive Field where
  | plain (name : Sym)
  | readable (name getter : Sym)
  | settable (name getter setter : Sym)

def Field.name : Field → Sym
  | .plain x => x
  | .readable x _ => x
  | .settable x _ _ => x

/-- how a field is written -/
def Field.form : Field → Datum
  | .plain x => .list [.sym x]
  | .readable x g => .list [.sym x, .sym g]
  | .settable x g s => .list [.sym x, .sym g, .sym s]

def Field.getter : Field → Option Sym
  | .plain _ => none
  | .readable _ g => some g
  | .settable _ g _ => some g

def Field.setter : Field → Option Sym
  | .settable _ _ s => some s
  | _ => none

/-- a record declaration: the name of the type, the constructor and the fields it sets, the predicate if asked for, and
the fields -/
structure Decl where
  type : Sym
  constructor : Sym
  inits : List Sym
  predicate : Option Sym
  fields : List Field

/-- how the predicate is written: its name, or `false` -/
def Decl.predicateForm (d : Decl) : Datum :=
  match d.predicate with
  | some p => .sym p
  | none => .bool false

/-- `(define-record type (constructor init …) predicate field …)` -/
def Decl.form (d : Decl) : Datum :=
  .list (kw "define-record" :: .sym d.type :: .list (.sym d.constructor :: d.inits.map .sym) ::
    d.predicateForm :: d.fields.map Field.form)

/-- the functions it defines -/
def Decl.names (d : Decl) : List Sym :=
  d.constructor :: d.predicate.toList ++ d.fields.flatMap fun f => f.getter.toList ++ f.setter.toList

/-- a library of vectors: `heap w l` is what the vector at `l` contains -/
structure Vectors (E : Ext W) where
  obj : Nat → Val
  heap : W → Nat → Option (List Val)
  vector : Nat
  isVector : Nat
  length : Nat
  ref : Nat
  set : Nat
  inj : ∀ l l', obj l = obj l' → l = l'
  vector_law : ∀ (w : World W) (n : Nat), ∃ l xs w', E.native vector [.int n] w = some (obj l, w') ∧
    heap w.rest l = none ∧ xs.length = n ∧ w'.globals = w.globals ∧
    ∀ l', heap w'.rest l' = if l' = l then some xs else heap w.rest l'
  isVector_law : ∀ (w : World W) (v : Val), ∃ b, E.native isVector [v] w = some (.bool b, w) ∧
    (b = true ↔ ∃ l xs, v = obj l ∧ heap w.rest l = some xs)
  length_law : ∀ (w : World W) (l : Nat) (xs : List Val), heap w.rest l = some xs →
    E.native length [obj l] w = some (.int xs.length, w)
  ref_law : ∀ (w : World W) (l : Nat) (xs : List Val) (i : Nat) (v : Val), heap w.rest l = some xs → xs[i]? = some v →
    E.native ref [obj l, .int i] w = some (v, w)
  set_law : ∀ (w : World W) (l : Nat) (xs : List Val) (i : Nat) (v : Val), heap w.rest l = some xs → i < xs.length →
    ∃ r w', E.native set [obj l, .int i, v] w = some (r, w') ∧ w'.globals = w.globals ∧
      ∀ l', heap w'.rest l' = if l' = l then some (xs.set i v) else heap w.rest l'

/-- the names of the vector library mean the library -/
structure Vectors.Loaded {E : Ext W} (V : Vectors E) (w : World W) : Prop where
  vector : w.globals (.named "vector") = some (.native V.vector 1)
  isVector : w.globals (.named "vector?") = some (.native V.isVector 1)
  length : w.globals (.named "vector-length") = some (.native V.length 1)
  ref : w.globals (.named "vector-ref") = some (.native V.ref 2)
  set : w.globals (.named "vector-set!") = some (.native V.set 3)

/-- the value is a record of the type, with these values of the fields -/
def IsRecord {E : Ext W} (V : Vectors E) (d : Decl) (w : World W) (v : Val) (values : List Val) : Prop :=
  ∃ l, v = V.obj l ∧ V.heap w.rest l = some (.sym d.type :: values) ∧ values.length = d.fields.length

/-- the functions `fs` work as declared -/
structure Implements {E : Ext W} (V : Vectors E) (d : Decl) (fs : List (Sym × Val)) : Prop where
  /-- the constructor makes a new record with the given values in the named fields -/
  construct : ∃ f, find d.constructor fs = some f ∧ ∀ (w : World W), V.Loaded w → ∀ args, args.length = d.inits.length →
    ∃ l values w', Apply E w f args (V.obj l) w' ∧ w'.globals = w.globals ∧ V.heap w.rest l = none ∧
      IsRecord V d w' (V.obj l) values ∧ (∀ l', l' ≠ l → V.heap w'.rest l' = V.heap w.rest l') ∧
      ∀ (i j : Nat) x, d.inits[i]? = some x → (d.fields.map Field.name)[j]? = some x → values[j]? = args[i]?
  /-- the predicate holds for the records of the type only -/
  predicate : ∀ p, d.predicate = some p → ∃ f, find p fs = some f ∧ ∀ (w : World W), V.Loaded w → ∀ v,
    ∃ b, Apply E w f [v] (.bool b) w ∧ (b = true ↔ ∃ values, IsRecord V d w v values)
  /-- a getter returns its field -/
  get : ∀ (j : Nat) fd g, d.fields[j]? = some fd → fd.getter = some g → ∃ f, find g fs = some f ∧
    ∀ (w : World W), V.Loaded w → ∀ v values, IsRecord V d w v values →
      ∃ x, values[j]? = some x ∧ Apply E w f [v] x w
  /-- a setter changes its field of that record and nothing else -/
  set : ∀ (j : Nat) fd s, d.fields[j]? = some fd → fd.setter = some s → ∃ f, find s fs = some f ∧
    ∀ (w : World W), V.Loaded w → ∀ v values x, IsRecord V d w v values →
      ∃ r w', Apply E w f [v, x] r w' ∧ w'.globals = w.globals ∧ IsRecord V d w' v (values.set j x) ∧
        ∀ l, v ≠ V.obj l → V.heap w'.rest l = V.heap w.rest l

/-- assignments to fields, one after the other: record, number of the field, value -/
inductive Assigns (E : Ext W) (d : Decl) (fs : List (Sym × Val)) : World W → List (Val × Nat × Val) → World W → Prop where
  | nil (w) : Assigns E d fs w [] w
  | cons (w v j x fd s f r w1 w2 ops) : d.fields[j]? = some fd → fd.setter = some s → find s fs = some f →
      Apply E w f [v, x] r w1 → Assigns E d fs w1 ops w2 → Assigns E d fs w ((v, j, x) :: ops) w2

/-- the value last assigned to field `j` of record `l`, if any -/
def lastAssigned (obj : Nat → Val) (l j : Nat) : List (Val × Nat × Val) → Val → Val → Prop
  | [], old, now => now = old
  | (v, i, x) :: r, old, now =>
    (v = obj l ∧ i = j → lastAssigned obj l j r x now) ∧ (¬ (v = obj l ∧ i = j) → lastAssigned obj l j r old now)

/-- names that a declaration may use: the functions are different and so are the fields, fields to be set exist, the
parameters are different and none is named like the library function the constructor needs, and no name is one that
`gensym` will make after `k` symbols or that means something else at the head of a form -/
structure Decl.ok (d : Decl) (k : Nat) : Prop where
  names : d.names.Nodup
  fields : (d.fields.map Field.name).Nodup
  inits : d.inits.Nodup
  exist : ∀ x ∈ d.inits, x ∈ d.fields.map Field.name
  shadow : .named "vector" ∉ d.inits ∧ .named "vector-set!" ∉ d.inits
  old : ∀ n, k ≤ n → Sym.gen n ∉ d.inits
end Spec.Lang
