import Verif.Model.Trie
import Verif.Model.NaNBox
/-
Model of symbol interning (/repo/src/types.c) and of global variables (/repo/src/runtime.c).
-/
namespace Cora

/-! ### interning -/

/-- The bytes a C function sees behind a `char *`: everything before the first NUL (src/types.c:158
`cstr(s)`, 161 `fromCStr(s)`). -/
def cname (s : Bytes) : Bytes := s.takeWhile (· ≠ 0)

theorem cname_length (s : Bytes) : (cname s).length ≤ s.length := by
  unfold cname
  induction s with
  | nil => simp
  | cons a t ih =>
    simp only [List.takeWhile]
    split
    · exact Nat.succ_le_succ ih
    · exact Nat.zero_le _

/-- the key `cstr(s)` -/
def ckey (s : Key) : Key := ⟨cname s.1, Nat.lt_of_le_of_lt (cname_length s.1) s.2⟩

/-- src/types.c:152 `symbolIntern`, together with the name buffers it owns: address ↦ name. The buffers
are never freed. -/
structure SymTab where
  map : HMap Key Obj
  bufs : List (Obj × Key)

/-- src/types.c:375 -/
def SymTab.init : SymTab := ⟨HMap.init strHash strEQ, []⟩

/-- src/types.c:154-168 `intern`. `p` is the address `fromCStr` obtains from `malloc` if a new buffer is
needed. `none` is the failed assertion of `makeNaNPtr`. -/
def intern (t : SymTab) (p : Obj) (s : Key) : Option (SymTab × Obj) :=
  match t.map.get (ckey s) with
  | none => do
    let o ← makeNaNPtr p TAG_SYMBOL
    some (⟨t.map.put (ckey s) p, (p, ckey s) :: t.bufs⟩, o)
  | some q => do
    let o ← makeNaNPtr q TAG_SYMBOL
    some (t, o)

/-- what is stored at an address -/
def SymTab.deref (t : SymTab) (p : Obj) : Option Key := (t.bufs.find? (fun e => e.1 == p)).map (·.2)

/-- src/runtime.c:231-238 `symbolToString` with src/types.c:170-178 `symbolStr` for an interned symbol
and `dest[256]`; `makeCString` stops at the first NUL. `none`: the assertion `len + 1 < 256` fails. -/
def symbolToString (t : SymTab) (o : Obj) : Option Bytes := do
  if tagOf o = TAG_SYMBOL.setWidth 64 then
    let k ← t.deref (ptrOf o)
    if k.1.length + 1 < 256 then some (cname k.1) else none
  else none

/-- a history of `intern` calls, each with the address `malloc` would give it; the results in order -/
def internAll : SymTab → List (Obj × Key) → Option (SymTab × List Obj)
  | t, [] => some (t, [])
  | t, (p, s) :: r => do
    let (t, o) ← intern t p s
    let (t, os) ← internAll t r
    some (t, o :: os)

/-! ### global variables -/

/-- A symbol: interned (identified by its name, see C13) or made by `gensym` (identified by its object).
src/types.h:43-45. -/
inductive Sym where
  | interned (name : Key)
  | gensym (id : Nat)
deriving DecidableEq

/-- The variable store: src/runtime.h `co->env` (name ↦ slot index) and `co->globals`, and the value
fields of the gensym objects. (`Binding.sym` is dropped: it is the symbol itself.) -/
structure Globals where
  env : HMap Key Nat
  slots : List Obj
  cells : Nat → Obj

/-- src/runtime.c:55-65; the model starts from an empty `globals` vector (the C code never initialises
it), and a gensym's value field is `Nil` (src/runtime.c:931-943). -/
def Globals.init : Globals := ⟨HMap.init strHash strEQ, [], fun _ => Nil⟩

/-- src/runtime.c:173-187 `bindSymbol`: the slot index. -/
def bindSymbol (g : Globals) (s : Key) : Globals × Nat :=
  match g.env.get s with
  | some i => (g, i)
  | none => ({ g with slots := g.slots ++ [Undef], env := g.env.put s g.slots.length }, g.slots.length)

/-- src/runtime.h:218-222 `globalRef`: `none` is an out-of-bounds read. -/
def globalRef (g : Globals) (i : Nat) : Option Obj := g.slots[i]?
/-- src/runtime.h:224-229 `globalSet` (the barrier stores the value): `none` is an out-of-bounds
write. -/
def globalSet (g : Globals) (i : Nat) (v : Obj) : Option Globals :=
  if i < g.slots.length then some { g with slots := g.slots.set i v } else none

/-- src/runtime.c:189-202 `symbolGet`. -/
def symbolGet (g : Globals) : Sym → Option (Globals × Obj)
  | .interned s => do
    let (g, i) := bindSymbol g s
    some (g, ← globalRef g i)
  | .gensym n => some (g, g.cells n)

/-- src/runtime.c:204-220 `primSet`. -/
def primSet (g : Globals) (s : Sym) (v : Obj) : Option (Globals × Obj) :=
  match s with
  | .interned s => do
    let (g, i) := bindSymbol g s
    let g ← globalSet g i v
    some (g, v)
  | .gensym n => some ({ g with cells := fun k => if k = n then v else g.cells k }, v)

/-- src/runtime.c:274-294 `builtinValue`: `none` is the trap. -/
def builtinValue (g : Globals) (s : Sym) : Option (Globals × Obj) := do
  let (g, v) ← symbolGet g s
  if v = Undef then none else some (g, v)

/-- src/runtime.c:296-315 `builtinValueOr`. -/
def builtinValueOr (g : Globals) (s : Sym) (dflt : Obj) : Option (Globals × Obj) := do
  let (g, v) ← symbolGet g s
  if v = Undef then some (g, dflt) else some (g, v)

/-- One step of a program as far as global variables are concerned. `bind` is what loading a compiled
module does for each symbol it mentions (the index is then kept and used with `globalRef` and
`globalSet`, src/runtime.h:218-229). -/
inductive GOp where
  | set (s : Sym) (v : Obj)
  | valueOr (s : Sym) (d : Obj)
  | bind (s : Key)

/-- run one operation -/
def GOp.run (g : Globals) : GOp → Option Globals
  | .set s v => (primSet g s v).map (·.1)
  | .valueOr s d => (builtinValueOr g s d).map (·.1)
  | .bind s => some (bindSymbol g s).1

/-- a history -/
def runG : Globals → List GOp → Option Globals
  | g, [] => some g
  | g, o :: r => do runG (← o.run g) r

end Cora
