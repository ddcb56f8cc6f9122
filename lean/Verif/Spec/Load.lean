import Verif.Model.Load
/-
Histories of loads in one process.
-/
open Spec Cora Cora.Load
namespace Spec.Loading

/-- a load: the name of the file, its text at that time, the library that was used and how it ended -/
structure Event where
  path : Cora.Bytes
  text : Cora.Bytes
  lib : Cora.Bytes
  out : Outcome

/-- some files did not change -/
def Kept (d d' : Disk) (files : List Cora.Bytes) : Prop := ∀ f ∈ files, d' f = d f

/-- What a process has loaded so far, first to last. Between loads anything may happen to the files. While a file is loaded anything
may happen to other files: only the C file is not touched until gcc has read it, and the library not until it is opened. -/
inductive Run (S : Sys) : List Event → Disk → Proc → Prop where
  | start (d) : Run S [] d .start
  | other {l d p} (d') : Run S l d p → Run S l d' p
  | load {l d p path t d1 p1 lib d1' d2 d2' p2 o} : Run S l d p → d path = some (.text t) → compileStep S d p path = some (d1, p1) →
      libFile S p.unique path = some lib → Kept d1 d1' [cFile p.unique] → linkStep S d1' p.unique lib = (d2, true) → Kept d2 d2' [lib] →
      openStep S d2' p1 lib = (p2, o) → Run S (l ++ [⟨path, t, lib, o⟩]) d2' p2
  | fail {l d p path t d1 p1 lib d1' d2} : Run S l d p → d path = some (.text t) → compileStep S d p path = some (d1, p1) →
      libFile S p.unique path = some lib → Kept d1 d1' [cFile p.unique] → linkStep S d1' p.unique lib = (d2, false) →
      Run S (l ++ [⟨path, t, lib, .gccFailed⟩]) d2 p1

/-- the name of a source file that can be given to a shell as it is, and has a slash -/
structure GoodPath (path : Cora.Bytes) : Prop where
  plain : plainWord path
  source : ∃ stem, path = stem ++ ascii ".cora" ∧ 47 ∈ stem

end Spec.Loading
