import Verif.Model.Kinds
/-
What the values are and how they lie in memory. Used by C103.
-/
namespace Spec.Kinds
open Cora Cora.Kinds

/-- the objects of the heap -/
inductive Item where
  | pair (a d : Obj)
  | string (s : List (BitVec 8))
  | vector (l : List Obj)
  | symbol
  | continuation
  | function (args : Int) (code : Obj)

/-- the object lies at address `a` -/
def Lies (m : Mem) (a : Nat) : Item → Prop
  | .pair x y => m (a + 4) = some 3 ∧ wordAt m (a + 8) = some x ∧ wordAt m (a + 16) = some y
  | .string s => m (a + 4) = some 4 ∧ int32At m (a + 8) = some (s.length : Int) ∧ bytesAt m (a + 12) s.length = some s
  | .vector l => m (a + 4) = some 5 ∧ int32At m (a + 24) = some (l.length : Int) ∧
      ∀ (i : Nat) (x : Obj), l[i]? = some x → wordAt m (a + 32 + 8 * i) = some x
  | .symbol => m (a + 4) = some 2
  | .continuation => m (a + 4) = some 6
  | .function n f => m (a + 4) = some 7 ∧ int32At m (a + 8) = some n ∧ wordAt m (a + 16) = some f

/-- a symbol with a name lies outside of the heap: the capacity and the length as four bytes each, then the characters -/
def Named (m : Mem) (a : Nat) (s : List (BitVec 8)) : Prop :=
  (∃ c, int32At m a = some c) ∧ (bytesAt m (a + 4) 4).map le = some s.length ∧ bytesAt m (a + 8) s.length = some s

/-- the tag of references to it -/
def Item.tag : Item → BitVec 8
  | .pair .. => TAG_CONS
  | .string .. => TAG_BYTES
  | .function .. => TAG_NATIVE
  | _ => TAG_PTR

/-- the word refers to the object -/
def Refers (m : Mem) (o : Obj) (i : Item) : Prop :=
  isobj o = true ∧ tagOf o = i.tag.setWidth 64 ∧ Lies m (addr o) i

/-- the word is the symbol of this name -/
def Symbol (m : Mem) (o : Obj) (s : List (BitVec 8)) : Prop :=
  isobj o = true ∧ tagOf o = TAG_SYMBOL.setWidth 64 ∧ Named m (addr o) s

/-- the word is one of the constants -/
def Constant (o : Obj) : Prop := o = Nil ∨ o = True' ∨ o = False' ∨ o = Undef

/-- nothing is mapped in the first page -/
def Page (m : Mem) : Prop := ∀ a, a < 4096 → m a = none

/-- the contents of a pair, a string, a vector, a function; `none` for everything else -/
def Item.pair? : Item → Option (Obj × Obj)
  | .pair a d => some (a, d)
  | _ => none
@[inherit_doc Item.pair?] def Item.string? : Item → Option (List (BitVec 8))
  | .string s => some s
  | _ => none
@[inherit_doc Item.pair?] def Item.vector? : Item → Option (List Obj)
  | .vector l => some l
  | _ => none
@[inherit_doc Item.pair?] def Item.function? : Item → Option (Int × Obj)
  | .function n f => some (n, f)
  | _ => none

/-- the element at an index that a vector has -/
def element (l : List Obj) (i : Int) : Option Obj := if 0 ≤ i then l[i.toNat]? else none

/-- how the operations on values should answer: with what the object holds if it is of their kind, and by stopping the program
(`none`) if not -/
structure Answers (m : Mem) (o : Obj) (p : Option (Obj × Obj)) (s : Option (List (BitVec 8))) (v : Option (List Obj)) (f : Option (Int × Obj)) : Prop where
  car : Kinds.car m o = p.map (·.1)
  cdr : Kinds.cdr m o = p.map (·.2)
  length : bytesLen m o = s.map (fun s => (s.length : Int))
  chars : (bytesData m o).bind (fun a => (bytesLen m o).bind fun n => bytesAt m a n.toNat) = s
  vector? : isvector m o = some v.isSome
  vlength : vectorLength m o = v.map (fun l => (l.length : Int))
  ref : ∀ i, vectorRef m o i = v.bind (element · i)
  call : callee m o = f

/-- the integer whose double has the bits `t` where a reference has its tag and `a` where a reference has its address -/
def forged (t a : Nat) : Int := 2 ^ 52 + t * 2 ^ 48 + a

/-- `k` of the bytes, from the `i`-th on -/
def slice (s : List (BitVec 8)) (i k : Nat) : List (BitVec 8) := (s.drop i).take k

/-- four bytes as a signed number -/
def signed (l : List (BitVec 8)) : Int := if le l < 2 ^ 31 then (le l : Int) else (le l : Int) - 2 ^ 32

end Spec.Kinds
