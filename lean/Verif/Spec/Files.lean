/-
Directories and files, independent of the model. A place in the file system is the list of names on the way to it from the root.
Links, and the names `.` and `..`, are left out.
-/
namespace Spec.Files

abbrev Name := List UInt8
abbrev Place := List Name

/-- a tree of directories with files -/
structure Tree where
  dir : Place → Prop
  file : Place → Option (List UInt8)

/-- the root is a directory, what is in a directory is in a directory, and nothing is both -/
structure Tree.Sound (t : Tree) : Prop where
  root : t.dir []
  up : ∀ p n, t.dir (p ++ [n]) → t.dir p
  upFile : ∀ p n, (t.file (p ++ [n])).isSome → t.dir p
  one : ∀ p, t.dir p → t.file p = none

/-- names separated by slashes, possibly several, and possibly some at the start: a path -/
inductive Path : List UInt8 → List Name → Prop where
  | nil : Path [] []
  | slash {s ns} : Path s ns → Path (s ++ [47]) ns
  | first {n} : n ≠ [] → 47 ∉ n → Path n [n]
  | name {s ns n} : Path s ns → n ≠ [] → 47 ∉ n → Path (s ++ [47] ++ n) (ns ++ [n])

/-- where a path leads: from the root if it starts with a slash, otherwise from the working directory -/
def Leads (cwd : Place) (s : List UInt8) (p : Place) : Prop := ∃ ns, Path s ns ∧ p = (if s.head? = some 47 then [] else cwd) ++ ns

/-- the directory is one of those on the way to the place -/
def Above (d p : Place) : Prop := ∃ n r, p = d ++ n :: r

/-- the tree after writing to a new or old file: the directories on the way are there, the file has the contents, the rest is as before -/
structure Opened (t : Tree) (p : Place) (t' : Tree) : Prop where
  dirs : ∀ d, t'.dir d ↔ t.dir d ∨ Above d p
  file : t'.file p = some []
  rest : ∀ q, q ≠ p → t'.file q = t.file q

end Spec.Files
