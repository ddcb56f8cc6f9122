import Verif.Model.Str
import Verif.Model.Reader
import Verif.Spec.Shell
import Verif.Spec.Sexp
/-
Model of loading a source file, /repo/src/runtime.c:387-461 and 325-352: compile to C, run the C compiler, open the library.
-/
open Spec
namespace Cora.Load

/-- src/runtime.c:390-406 `getCoraPath`: `env` is `$CORAPATH` if it is set, `home` the user's home directory. `none`: with an empty
variable the byte before the buffer is read. -/
def getCoraPath (env : Option Bytes) (home : Bytes) : Option Bytes :=
  let tmp := match env with
    | none => home ++ ascii "/.local/share/cora/"
    | some p => p
  match tmp.getLast? with
  | none => none
  | some c => some (if c ≠ 47 then tmp ++ [47] else tmp)

/-- a file: a text, or a shared library that was made from a C file with the text `c` -/
inductive File where
  | text (b : Bytes)
  | lib (c : Bytes)
  deriving DecidableEq

/-- the files by their names. Simplified: two names are two files. -/
abbrev Disk := Bytes → Option File

def Disk.put (d : Disk) (p : Bytes) (f : File) : Disk := fun q => if q = p then some f else d q

/-- what a process is given: the result of `getCoraPath`, `coraSrcDir` (src/config.c), what the compiler `compile-to-c` makes of a
text (C78), whether the C compiler takes a text, and where the dynamic linker looks for names without a slash -/
structure Sys where
  base : Bytes
  srcDir : Bytes
  toC : Bytes → Option Bytes
  cc : Bytes → Bool
  search : List Bytes

/-- a process: the counter `unique` (src/runtime.c:406) and the libraries that are open, by the name they were opened with -/
structure Proc where
  unique : Nat
  handles : List (Bytes × Bytes)

/-- a process that starts -/
def Proc.start : Proc := ⟨1, []⟩

/-- src/runtime.c:418: the C file. (`unique` is an int; that it is at most 2^31 - 1 is left out.) -/
def cFile (n : Nat) : Bytes := ascii "/tmp/cora-xxx-" ++ Reader.decDigits n ++ ascii ".c"

/-- src/runtime.c:437 -/
def tmpLib (n : Nat) : Bytes := ascii "/tmp/cora-xxx-" ++ Reader.decDigits n ++ ascii ".so"

/-- src/runtime.c:429-438: the name of the library for the `n`-th file. `none`: out of bounds. -/
def libFile (S : Sys) (n : Nat) (path : Bytes) : Option Bytes :=
  if strCmp path S.base > 0 then
    if path.length < 3 then none
    else (strSub path 0 (path.length - 5)).map (· ++ ascii ".so")
  else some (tmpLib n)

/-- src/runtime.c:440-443: the command, cut to the size of the buffer -/
def command (S : Sys) (n : Nat) (lib : Bytes) : Bytes :=
  (ascii "gcc -shared -I" ++ S.srcDir ++ ascii " -g -fPIC " ++ cFile n ++ ascii " -o " ++ lib ++ ascii " -ldl -lm -L" ++ S.srcDir ++
    ascii " -lcora").take 511

/-- How gcc reads its arguments: the input files and the output file. (Of the options only `-o` takes the next word.) `none`: an error. -/
def gccArgs : List Bytes → Option (List Bytes × Option Bytes)
  | [] => some ([], none)
  | w :: r =>
    if w = [45, 111] then
      match r with
      | [] => none
      | o :: r => (gccArgs r).map fun (ins, out) => (ins, some (out.getD o))
    else if w.head? = some 45 then gccArgs r
    else (gccArgs r).map fun (ins, out) => (w :: ins, out)

/-- gcc: all input files must be there and the first must be a text that it takes; the library is the output file. `none`: an
error. -/
def gcc (S : Sys) (d : Disk) (args : List Bytes) : Option Disk :=
  match gccArgs args with
  | some (i :: ins, out) =>
    match d i with
    | some (.text c) => if S.cc c && ins.all (fun j => (d j).isSome) then some (d.put (out.getD (ascii "a.out")) (.lib c)) else none
    | _ => none
  | _ => none

/-- how a load ends: the code of a C file runs, gcc fails, or there is no such library -/
inductive Outcome where
  | ran (c : Bytes)
  | gccFailed
  | notFound
  deriving DecidableEq

/-- src/runtime.c:409-425: the first part of `builtinLoad`. The new C file is written. `none`: there is no such file, or it is not
compiled. -/
def compileStep (S : Sys) (d : Disk) (p : Proc) (path : Bytes) : Option (Disk × Proc) :=
  match d path with
  | some (.text t) => (S.toC t).map fun c => (d.put (cFile p.unique) (.text c), { p with unique := p.unique + 1 })
  | _ => none

/-- src/runtime.c:427-449: the second part: the command is run by the shell. The result is the disk and whether gcc succeeded. -/
def linkStep (S : Sys) (d : Disk) (n : Nat) (lib : Bytes) : Disk × Bool :=
  match shellWords [] (command S n lib) with
  | g :: args =>
    if g = ascii "gcc" then
      match gcc S d args with
      | some d => (d, true)
      | none => (d, false)
    else (d, false)
  | [] => (d, false)

/-- the file that `dlopen` finds: a name with a slash is the file itself, others are looked for in the directories of the linker -/
def findLib (S : Sys) (d : Disk) (name : Bytes) : Option Bytes :=
  let names := if name.contains 47 then [name] else S.search.map (· ++ 47 :: name)
  names.findSome? fun q => match d q with
    | some (.lib c) => some c
    | _ => none

/-- src/runtime.c:451-460 and 325-352 `builtinLoadSo`: the last part. `dlopen` gives the library that is open already if there is one
with that name. -/
def openStep (S : Sys) (d : Disk) (p : Proc) (lib : Bytes) : Proc × Outcome :=
  match p.handles.lookup lib with
  | some c => (p, .ran c)
  | none =>
    match findLib S d lib with
    | some c => ({ p with handles := (lib, c) :: p.handles }, .ran c)
    | none => (p, .notFound)

end Cora.Load
