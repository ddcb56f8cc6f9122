import Verif.Model.CodeMachine
import Verif.Spec.Compile
import Verif.Spec.CompileRun
/-
What a program has to be like to be written as C, and what loading generated C files is expected to do.
-/
open Spec.Lang Spec.C
namespace Spec.Lang

mutual
/-- the same function binds no variable twice, except in the two branches of an `if`; parameters have different names -/
def Core.apart : Core → Prop
  | .lit _ => True
  | .quote _ => True
  | .var _ => True
  | .lam ps b => ps.Nodup ∧ b.apart
  | .ite a b c => a.apart ∧ b.apart ∧ c.apart ∧ ∀ x ∈ a.lets, x ∉ b.lets ∧ x ∉ c.lets
  | .seq a b => a.apart ∧ b.apart ∧ ∀ x ∈ a.lets, x ∉ b.lets
  | .bind x e b => e.apart ∧ b.apart ∧ x ∉ e.lets ∧ ∀ y ∈ e.lets, y ∉ b.lets
  | .app f args => f.apart ∧ Core.aparts args
def Core.aparts : List Core → Prop
  | [] => True
  | e :: es => e.apart ∧ Core.aparts es
end

/-- a constant without pairs, and without zero bytes and backslashes in strings -/
def Datum.writable : Datum → Prop
  | .str s => (0 : UInt8) ∉ s.toUTF8.data.toList ∧ (92 : UInt8) ∉ s.toUTF8.data.toList
  | .cons _ _ => False
  | _ => True

mutual
/-- all constants are `writable` -/
def Core.writable : Core → Prop
  | .lit c => c.datum.writable
  | .quote d => d.writable
  | .var _ => True
  | .lam _ b => b.writable
  | .ite a b c => a.writable ∧ b.writable ∧ c.writable
  | .seq a b => a.writable ∧ b.writable
  | .bind _ e b => e.writable ∧ b.writable
  | .app f args => f.writable ∧ Core.writables args
def Core.writables : List Core → Prop
  | [] => True
  | e :: es => e.writable ∧ Core.writables es
end

end Spec.Lang

namespace Cora.Compile

/-- the identifier of a function -/
def group (label : Nat) : Bytes := txt "clofun" ++ Reader.decDigits label

/-- the form of a name -/
def IdForm (b : Bytes) : Prop := (∃ c r, b = c :: r ∧ isLetter c = true) ∧ ∀ c ∈ b, isIdChar c = true

/-- the other names that generated functions use besides their own variables and the functions of the file. (The parameter `label` is only
read at the beginning; the variables are declared in blocks after that, where they may hide it.) -/
def parts : List Bytes := ["co", "R", "__args", "packageID"].map txt

/-- a name for a variable of the program: an identifier, no keyword, and not one of the names that the generated code uses for
itself -/
structure Usable (b : Bytes) : Prop where
  form : IdForm b
  name : isName b = true
  header : b ∉ headers
  part : b ∉ parts
  group : ∀ n, b ≠ group n

/-- variables with usable and different names -/
structure VarsOk (g : Gen) (V : List Spec.Lang.Sym) : Prop where
  usable : ∀ x ∈ V, ∃ b, genSym g x = some b ∧ Usable b
  inj : ∀ x ∈ V, ∀ y ∈ V, genSym g x = genSym g y → x = y

/-- an entry of the table: a symbol with its own name, which has no NUL, quote, backslash or newline and is not too long -/
def EntryOk (g : Gen) (d : Datum) : Prop :=
  ∃ s, d = .sym (.named s) ∧ g.nm (.named s) = bytesOf s ∧ (bytesOf s).length < 255 ∧ (0 : UInt8) ∉ bytesOf s ∧
    (34 : UInt8) ∉ bytesOf s ∧ (92 : UInt8) ∉ bytesOf s ∧ (10 : UInt8) ∉ bytesOf s

/-- the variables that a compiled form may bind: its own and those made by `gensym` before the counter was `k` -/
def ownVars (e : Core) (k : Nat) : List Spec.Lang.Sym := e.binders ++ (List.range k).map .gen

end Cora.Compile

namespace Spec.Compiled
open Cora.Compile

/-- Generated C files are loaded one after the other, as in `Loads`, but all that is known of them is their text: it is taken by
the C compiler, and the machine runs its functions. -/
def LoadsText {W : Type} (O : Outside W) (n : Nat) : List Bytes → CWorld MCode W → List (Bytes × Val × World W) → Prop
  | _, _, [] => True
  | files, w, (text, v, w1) :: more => ∀ s : Mach W, s.world = w → InFrame n s →
      ∃ file s', readFile text = some file ∧ (∃ fuel, goText O (files ++ [text]) fuel (s.loadSo files.length file.start) none = some s') ∧
        Looks v s'.res ∧ Worlds Looks w1 s'.world ∧
        s'.ctx = { s.ctx with fn := .exit, label := 0 } ∧ s'.frames = s.frames ∧
        (∀ p < s.ctx.bp, s'.stack p = s.stack p) ∧ LoadsText O n (files ++ [text]) s'.world more

end Spec.Compiled
