import Verif.Model.Str
import Verif.Spec.Files
/-
Model of `open-output-file`, /repo/lib/io.c. The operating system is modelled by what `mkdir` and `fopen` do to a tree of directories
(Spec/Files); it may refuse, for lack of permission or because a name is too long.
-/
open Spec.Files
namespace Cora.Files

/-- the file system with the working directory and what the system refuses -/
structure Sys where
  tree : Tree
  cwd : Place
  deny : Place → Prop

/-- reading a path: complete names so far and the name that is being read -/
def walk : List Name × Name → Bytes → List Name × Name
  | st, [] => st
  | (done, cur), c :: r => walk (if c = 47 then (if cur = [] then (done, []) else (done ++ [cur], [])) else (done, cur ++ [c])) r

/-- the names of a path -/
def names (s : Bytes) : List Name :=
  let (done, cur) := walk ([], []) s
  if cur = [] then done else done ++ [cur]

/-- where the system goes with a path -/
def Sys.place (S : Sys) (s : Bytes) : Place := (if s.head? = some 47 then [] else S.cwd) ++ names s

open Classical in
/-- POSIX `mkdir`: fails, without effect, for the empty path, if the directory above is missing, if there is something already, or if it is
refused -/
noncomputable def Sys.mkdir (S : Sys) (s : Bytes) : Sys :=
  let p := S.place s
  if s ≠ [] ∧ p ≠ [] ∧ S.tree.dir p.dropLast ∧ ¬ S.tree.dir p ∧ S.tree.file p = none ∧ ¬ S.deny p then
    { S with tree := { S.tree with dir := fun d => S.tree.dir d ∨ d = p } }
  else S

open Classical in
/-- C's `fopen(s, "w")`: the file is made or made empty. `none`: it fails, for the empty path, a path that ends with a slash, a missing directory,
a directory, or if it is refused. -/
noncomputable def Sys.fopen (S : Sys) (s : Bytes) : Option (Place × Sys) :=
  let p := S.place s
  if s ≠ [] ∧ s.getLast? ≠ some 47 ∧ p ≠ [] ∧ S.tree.dir p.dropLast ∧ ¬ S.tree.dir p ∧ ¬ S.deny p then
    some (p, { S with tree := { S.tree with file := fun q => if q = p then some [] else S.tree.file q } })
  else none

/-- lib/io.c:33-39 the loop of `mkdirP`: `pre` is the part before `p` -/
noncomputable def mkdirLoop (S : Sys) (pre : Bytes) : Bytes → Sys
  | [] => S
  | c :: r => mkdirLoop (if c = 47 then S.mkdir pre else S) (pre ++ [c]) r

/-- lib/io.c:17-42 `mkdirP`: the path is cut at 1023 bytes, and one slash at the end is dropped. The loop starts at the second byte. -/
noncomputable def mkdirP (S : Sys) (path : Bytes) : Sys :=
  let tmp := path.take 1023
  let tmp := if tmp.getLast? = some 47 then tmp.dropLast else tmp
  let S := match tmp with
    | [] => S
    | c :: r => mkdirLoop S [c] r
  S.mkdir tmp

/-- lib/io.c:44-63 `builtinOpenOutputFile`, for a path without NUL; the answer is the file, `none` stands for the null pointer -/
noncomputable def openOutputFile (S : Sys) (path : Bytes) : Option Place × Sys :=
  let pos := strRchr path 47
  let S := if pos > 0 then mkdirP S (path.take pos.toNat) else S
  match S.fopen path with
  | some (p, S) => (some p, S)
  | none => (none, S)

end Cora.Files
