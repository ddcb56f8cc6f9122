import Verif.Spec.Types
/-
Types of data: lists, pairs of two types, and what may be missing.
-/
namespace Spec.Types

/-- types with rules of their own: `(list a)`, `(tuple a b)`, `(maybe a)`, `(monad a)`, and those that a program adds -/
inductive RTy where
  | base (t : Ty)
  | list (a : RTy)
  | tuple (a b : RTy)
  | maybe (a : RTy)
  | monad (a : RTy)
  | user (c : String)

/-- data of a type: lists of elements, pairs, `()` for what is missing; everything else has a simple type -/
inductive DataType (decl : String → Option Ty) : Exp → RTy → Prop
  | base {e t} : HasType decl [] e t → DataType decl e (.base t)
  | nil {a} : DataType decl .nil (.list a)
  | cons {x y a} : DataType decl x a → DataType decl y (.list a) → DataType decl (.consE x y) (.list a)
  | tuple {x y a b} : DataType decl x a → DataType decl y b → DataType decl (.consE x y) (.tuple a b)
  | nothing {a} : DataType decl .nil (.maybe a)
  | just {e a} : DataType decl e a → DataType decl e (.maybe a)

end Spec.Types
