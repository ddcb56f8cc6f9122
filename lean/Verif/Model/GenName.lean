import Verif.Model.Symbols
import Verif.Model.Ident
/-
Generated symbols and their names (/repo/src/types.c, /repo/src/runtime.c), as the system is normally built (without `_BOOTSTRAP_TEST_`; for that
see `Model/Boot`).
-/
namespace Cora.GenName

/-- src/runtime.c:931-943 `primGenSym`: the symbol is the address of a new object; `p` is what the allocator gives -/
def genSym (p : Obj) : Option Obj := makeNaNPtr p TAG_PTR

/-- src/types.c:170-190 `symbolStr` with `dest[256]` (src/runtime.c:231-238, lib/toc/internal.c:15-22); `gen`: at which addresses the object is a
generated symbol. `%ld` of the symbol. `none`: an assertion fails. -/
def symbolStr (t : SymTab) (gen : Obj → Bool) (o : Obj) : Option Bytes :=
  if issymbol gen o then
    if tagOf o = TAG_SYMBOL.setWidth 64 then symbolToString t o
    else some ((120 :: Reader.printInt o.toInt).take 255)
  else none

/-- lib/toc/internal.c:15-37: the C variable that the compiler writes for a symbol -/
def cVariable (t : SymTab) (gen : Obj → Bool) (o : Obj) : Option Bytes := (symbolStr t gen o).bind generateSym

end Cora.GenName
