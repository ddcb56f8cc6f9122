/-
Packages: src/runtime.c:463-553 and lib/toc.cora:607-620.
-/
namespace Cora.Import

/-- a package name: the bytes of the string given to `import` -/
abbrev Name := List UInt8

/-- what loading a package does, as far as imports are concerned: compute, import, go on with the new world.
`W` is everything a program can observe apart from the list of imports. A load that traps or runs forever by itself is
left out. -/
inductive Act (W : Type) where
  | done (w : W)
  | imp (p : Name) (w : W) (k : W → Act W)

/-- the global `cora/init#*imported*` (src/runtime.c:1098), the packages whose bodies were started, last first, and the
world -/
structure St (W : Type) where
  imported : List Name
  started : List Name
  w : W

variable {W : Type}

/-- run the actions of a load with a given import function -/
def runAct (imp : St W → Name → Option (St W)) : Act W → St W → Option (St W)
  | .done w, s => some { s with w := w }
  | .imp p w k, s =>
    match imp { s with w := w } p with
    | some s' => runAct imp (k s'.w) s'
    | none => none

/-- src/runtime.c:503-553 `builtinImport`. `eq` of two strings is equality of their bytes. The global is set before the
package is loaded. `load name w` is everything `builtinLoadSo` or `builtinLoad` then do: with `builtinLoad` this is first
the imports done while compiling (lib/toc.cora:607-617 `handle-import-eagerly`), then the body. The first argument bounds
the nesting of imports; `none` means it is exceeded. -/
def importPkg (load : Name → W → Act W) : Nat → St W → Name → Option (St W)
  | 0, _, _ => none
  | n + 1, s, pkg =>
    if s.imported.any (· == pkg) then some s
    else
      runAct (importPkg load n) (load pkg s.w)
        { s with imported := pkg :: s.imported, started := pkg :: s.started }

/-- a sequence of imports at top level -/
def importAll (load : Name → W → Act W) (n : Nat) : List Name → St W → Option (St W)
  | [], s => some s
  | p :: ps, s => (importPkg load n s p).bind (importAll load n ps)

/-- the bytes of `pkg/`, `.so` and `.cora` -/
def dirPkg : Name := [112, 107, 103, 47]
def extSo : Name := [46, 115, 111]
def extCora : Name := [46, 99, 111, 114, 97]

/-- what the file system says about a path: `access(path, R_OK)` and the modification time if `stat` succeeds -/
structure Files where
  readable : Name → Bool
  mtime : Name → Option Nat

/-- src/runtime.c:463-497 `safeToUseSo`; the path ends in `.so`, `strShrink` removes three bytes -/
def safeToUseSo (f : Files) (so : Name) : Bool :=
  if !f.readable so then false
  else
    let src := so.take (so.length - 3) ++ extCora
    if !f.readable src then true
    else
      match f.mtime src, f.mtime so with
      | some tc, some ts => if tc > ts then false else true
      | _, _ => true

/-- the file `import` hands on: `load-so` or `load` with a path -/
inductive Target where
  | so (path : Name)
  | source (path : Name)
  deriving DecidableEq

/-- src/runtime.c:524-552: the path and the choice between the compiled and the source file; `base` is the result of
`getCoraPath` -/
def target (f : Files) (base pkg : Name) : Target :=
  let so := base ++ dirPkg ++ pkg ++ extSo
  if safeToUseSo f so then .so so else .source (so.take (so.length - 3) ++ extCora)

end Cora.Import
