import Verif.Model.Eq
import Verif.Model.Symbols
/-
Model of `hash-to-number`, /repo/lib/hash-h.c:14-52, on the words of the machine.
-/
namespace Cora.HashNum

/-- lib/hash-h.c:3-10 `hashForString`: the sum of the signed characters up to the NUL. The sum of fewer than 256
characters stays within an `int`; for longer strings the branch that calls it is never reached (C65). -/
def hashForString (s : Bytes) : Int := (((cname s).map charVal).sum)

/-- lib/hash-h.c:35-46, the code under `case TAG_PTR`; `isvec` says which words are vectors, `rec` is the function
itself -/
def ptrCase (m : Mem) (isvec : Obj → Bool) (rec : Obj → Option Obj) (key : Obj) : Option Obj :=
  if isNumber key then some key
  else if isBytes key then do makeNumber (7671 + hashForString (← bytesOf m key))
  else if isvec key then makeNumber 42
  else if iscons key then do
    let v1 ← rec (← carOf m key)
    let v2 ← rec (← cdrOf m key)
    makeNumber ((← fixnum v1) + (← fixnum v2))
  else makeNumber 42

/-- lib/hash-h.c:12-54 `hashToNumberHelp`. `case TAG_IMMED` falls through to `case TAG_PTR` when the key is none of
the four immediates. A symbol that is not interned has the tag `TAG_PTR`. `t` is the symbol table, the fuel stands for the depth
of the C recursion. -/
def hashToNumber (m : Mem) (t : SymTab) (isvec : Obj → Bool) : Nat → Obj → Option Obj
  | 0, _ => none
  | fuel + 1, key =>
    if isfixnum key then some key
    else if tagOf key = TAG_SYMBOL.setWidth 64 then do
      if isobj key then
        makeNumber (hashForString (← symbolToString t key))
      else none
    else if tagOf key = TAG_IMMED.setWidth 64 then
      if key = True' then makeNumber 17
      else if key = False' then makeNumber 37
      else if key = Nil then makeNumber 41
      else if key = Undef then makeNumber 47
      else ptrCase m isvec (hashToNumber m t isvec fuel) key
    else if tagOf key = TAG_PTR.setWidth 64 then ptrCase m isvec (hashToNumber m t isvec fuel) key
    else makeNumber 42

end Cora.HashNum
