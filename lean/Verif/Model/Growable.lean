import Verif.Spec.Growable
/-
Model of /repo/src/vector.h: the vectors that hold the call stack, the marks of `try`, the table of stack segments, the global variables and
the packages (src/runtime.c). Memory is made of blocks of bytes; an allocator that is not known decides where they are and when there
is no more. What C leaves undefined is `ub`.
-/
open Spec.Growable
namespace Cora.Growable

abbrev Elem := List UInt8

/-- blocks of bytes, where `none` was not written yet, by address, and the number of calls of the allocator so far. There is
no block at 0 (`NULL`). -/
structure Mem where
  blocks : Nat → Option (List (Option UInt8))
  calls : Nat

inductive Outcome (α : Type) where
  | ok (a : α)
  | exit
  | ub
deriving DecidableEq

def Outcome.bind {α β : Type} : Outcome α → (α → Outcome β) → Outcome β
  | .ok a, f => f a
  | .exit, _ => .exit
  | .ub, _ => .ub

/-- where a block of so many bytes goes, if there is room; for `realloc` with the address of the block before -/
abbrev Allocator := Mem → Option Nat → Nat → Option Nat

/-- src/vector.h:8-12 `struct Vector` -/
structure Vec where
  data : Nat
  len : Int
  cap : Int

def update (m : Nat → Option (List (Option UInt8))) (a : Nat) (b : Option (List (Option UInt8))) : Nat → Option (List (Option UInt8)) :=
  fun x => if x = a then b else m x

/-- `realloc` of the C library; `realloc(NULL, n)` is `malloc(n)`. The contents move to the new block as far as they fit. `none`: no room. -/
def realloc (A : Allocator) (m : Mem) (old n : Nat) : Outcome (Option (Nat × Mem)) :=
  if old = 0 then
    match A m none n with
    | none => .ok none
    | some a => .ok (some (a, ⟨update m.blocks a (some (List.replicate n none)), m.calls + 1⟩))
  else
    match m.blocks old with
    | none => .ub
    | some b =>
      match A m (some old) n with
      | none => .ok none
      | some a => .ok (some (a, ⟨update (update m.blocks old none) a (some (b.take n ++ List.replicate (n - b.length) none)), m.calls + 1⟩))

/-- bytes are written into a block -/
def store (m : Mem) (a off : Nat) (e : Elem) : Outcome Mem :=
  match m.blocks a with
  | none => .ub
  | some b =>
    if off + e.length ≤ b.length then .ok { m with blocks := update m.blocks a (some (b.take off ++ e.map some ++ b.drop (off + e.length))) }
    else .ub

/-- bytes are read; ones that were not written yet are indeterminate, which counts as undefined -/
def load (m : Mem) (a off n : Nat) : Outcome Elem :=
  match m.blocks a with
  | none => .ub
  | some b =>
    if off + n ≤ b.length then
      match ((b.drop off).take n).mapM id with
      | some e => .ok e
      | none => .ub
    else .ub

/-- the greatest `int` -/
def intMax : Int := 2147483647

/-- src/vector.h:33-38 `_vector_init`: what `malloc` answers is not looked at -/
def init (A : Allocator) (m : Mem) (cap : Nat) (size : Nat) : Vec × Mem :=
  match A m none (cap * size % 18446744073709551616) with
  | none => (⟨0, 0, cap⟩, m)
  | some a => (⟨a, 0, cap⟩, ⟨update m.blocks a (some (List.replicate (cap * size % 18446744073709551616) none)), m.calls + 1⟩)

/-- src/vector.h:18-26: the vector with room for one more -/
def grow (A : Allocator) (size : Nat) (v : Vec) (m : Mem) : Outcome (Vec × Mem) :=
  if v.len ≥ v.cap then
    let newCap := if v.cap > 0 then v.cap * 2 else 1
    if newCap > intMax then .ub
    else (realloc A m v.data (newCap.toNat * size % 18446744073709551616)).bind fun
      | none => .exit
      | some (a, m) => .ok (⟨a, v.len, newCap⟩, m)
  else .ok (v, m)

/-- src/vector.h:16-31 `_vector_append`, 50-54 `vecAppend`: the value is copied first -/
def append (A : Allocator) (size : Nat) (v : Vec) (m : Mem) (e : Elem) : Outcome (Vec × Mem) :=
  (grow A size v m).bind fun (v, m) => (store m v.data (v.len.toNat * size) e).bind fun m => .ok ({ v with len := v.len + 1 }, m)

/-- src/vector.h:63-64 `vecGet` -/
def get (size : Nat) (v : Vec) (m : Mem) (i : Nat) : Outcome Elem := load m v.data (i * size) size

/-- src/vector.h:68-71 `vecSet` -/
def set (size : Nat) (v : Vec) (m : Mem) (i : Nat) (e : Elem) : Outcome Mem := store m v.data (i * size) e

/-- src/vector.h:66 `vecPop`: the element before the end of the block would be read at -1, which is outside of it -/
def pop (size : Nat) (v : Vec) (m : Mem) : Outcome (Elem × Vec) :=
  if v.len ≤ 0 then .ub
  else (load m v.data ((v.len - 1).toNat * size) size).bind fun e => .ok (e, { v with len := v.len - 1 })

/-- src/vector.h:41-48 `_vector_free` -/
def free (v : Vec) (m : Mem) : Outcome (Vec × Mem) :=
  if v.data = 0 then .ok (⟨0, 0, 0⟩, m)
  else match m.blocks v.data with
    | none => .ub
    | some _ => .ok (⟨0, 0, 0⟩, { m with blocks := update m.blocks v.data none })

/-- the macros, with their answers -/
def step (A : Allocator) (size : Nat) (v : Vec) (m : Mem) : Op Elem → Outcome (Vec × Mem × Option Elem)
  | .append e => (append A size v m e).bind fun (v, m) => .ok (v, m, none)
  | .look i => (get size v m i).bind fun e => .ok (v, m, some e)
  | .replace i e => (set size v m i e).bind fun m => .ok (v, m, none)
  | .pop => (pop size v m).bind fun (e, v) => .ok (v, m, some e)

def run (A : Allocator) (size : Nat) : Vec → Mem → List (Op Elem) → Outcome (Vec × Mem × List (Option Elem))
  | v, m, [] => .ok (v, m, [])
  | v, m, op :: ops => (step A size v m op).bind fun (v, m, a) => (run A size v m ops).bind fun (v, m, as) => .ok (v, m, a :: as)

end Cora.Growable
