import Verif.Lemmas.Boot
/-
A comparison of the model with files in the repository. It is no proof, and no theorem depends on it: it shows that the modelled reader,
macro expander, partial evaluator, compiler and C generator, composed, write init.c and lib/toc.c byte for byte as they are
checked in, and that both programs are as C83 asks. `tools/conform.sh` runs it.
-/
open Spec.Lang Cora.Compile
namespace Cora.Boot

/-- one file: are the two texts the same, and the conditions on its program -/
def conform (mt : Macro.Macros) (n : Nat) (src : Bytes) (k : Nat) (c : Bytes) : Option (Bool × Bool × Bool × Bool) := do
  let (text, _) ← compileToC (setting mt) n src k
  let (e, k2) ← Toc.program (setting mt) n src (k + 1)
  let e' ← Peval.peval n [] e
  let (lams, k3) ← compile e' k2
  some (text == c, harmless n [] [] e, forCB k2 k3 e', roomB 3 lams)

/-- the two files; the numbers are how many symbols had been generated when the files were compiled -/
def conformAll (repo : String) : IO Unit := do
  for (name, mt, src, k, c) in [("init.c", initMacros, "init.cora", 12406, "init.c"),
      ("lib/toc.c", tocMacros, "lib/toc.cora", 16597, "lib/toc.c")] do
    let src ← IO.FS.readBinFile (repo ++ "/" ++ src)
    let c ← IO.FS.readBinFile (repo ++ "/" ++ c)
    match conform mt 60000 src.toList k c.toList with
    | none => IO.println s!"{name}: not compiled"
    | some (same, safe, forC, room) => IO.println s!"{name}: same text {same}, partial evaluation safe {safe}, as C77 asks {forC}, fits {room}"

end Cora.Boot
