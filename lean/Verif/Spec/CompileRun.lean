import Verif.Spec.Late
import Verif.Model.CompileMachine
/-
What it means that compiled files behave like the forms they were made from.
-/
open Spec.Lang Cora.Compile
namespace Spec.Compiled
variable {A W : Type}

/-- functions -/
def isFunction : Val → Bool
  | .clo _ _ _ | .prim _ | .pap _ _ | .native _ _ => true
  | _ => false

/-- functions -/
def isFunctionObject : CVal A → Bool
  | .clo _ _ _ | .prim _ | .pap _ _ | .native _ _ => true
  | _ => false

/-- a value of the language and one of the machine look the same: the same data, with functions at the same places -/
inductive Looks : Val → CVal A → Prop where
  | int (n) : Looks (.int n) (.int n)
  | bool (b) : Looks (.bool b) (.bool b)
  | nil : Looks .nil .nil
  | str (s) : Looks (.str s) (.str s)
  | sym (x) : Looks (.sym x) (.sym x)
  | cons {a d a' d'} : Looks a a' → Looks d d' → Looks (.cons a d) (.cons a' d')
  | fn {v u} : isFunction v = true → isFunctionObject u = true → Looks v u

/-- the same value, without functions other than builtin ones -/
inductive Plain : Val → CVal A → Prop where
  | int (n) : Plain (.int n) (.int n)
  | bool (b) : Plain (.bool b) (.bool b)
  | nil : Plain .nil .nil
  | str (s) : Plain (.str s) (.str s)
  | sym (x) : Plain (.sym x) (.sym x)
  | cons {a d a' d'} : Plain a a' → Plain d d' → Plain (.cons a d) (.cons a' d')
  | prim (p) : Plain (.prim p) (.prim p)
  | native (id n) : Plain (.native id n) (.native id n)

/-- both or none -/
def Both (V : Val → CVal A → Prop) (a : Option Val) (b : Option (CVal A)) : Prop :=
  (a = none ∧ b = none) ∨ ∃ v u, a = some v ∧ b = some u ∧ V v u

/-- the outside is in the same state, and global variables are related -/
def Worlds (V : Val → CVal A → Prop) (w : World W) (w' : CWorld A W) : Prop :=
  w.rest = w'.rest ∧ ∀ x, Both V (w.globals x) (w'.globals x)

/-- the machine runs a function whose frame has `n` registers and which has captured nothing -/
def InFrame (n : Nat) (s : Mach W) : Prop := capturedOf (s.stack s.ctx.bp) = [] ∧ s.ctx.sp = s.ctx.bp + n

/-- the toplevel code of a compiled file saves less than `n` variables at a time -/
def FitsFrame (n : Nat) (file : List Lam) : Prop := ∀ top, file.getLast? = some top → ∀ c ∈ top.conts, c.live.length < n

/-- one form after the other; each with its value and the world after it. If `over` is false, no function is called with more
arguments than it takes. -/
inductive XSession (over : Bool) (E : Ext W) : World W → List (Core × Val × World W) → Prop where
  | nil (w) : XSession over E w []
  | cons {w e v o w1 r} : XEval over E [] w e v o w1 → XSession over E w1 r → XSession over E w ((e, v, w1) :: r)

/-- one form after the other; each with its value and the world after it -/
abbrev Session (E : Ext W) := XSession true E

/-- compiled files are loaded one after the other, each from any machine state that has the world which the last
one left, in a frame of `n` registers. Each is run to its end; the result and the world look like the expected ones,
and the callers find their registers and frames unchanged. -/
def Loads (O : Outside W) (n : Nat) : List (List Lam) → CWorld MCode W → List (List Lam × Val × World W) → Prop
  | _, _, [] => True
  | units, w, (file, v, w1) :: more => ∀ s : Mach W, s.world = w → InFrame n s →
      ∃ s', (∃ fuel, go O (units ++ [file]) fuel (s.loadSo units.length (file.length - 1)) none = some s') ∧
        Looks v s'.res ∧ Worlds Looks w1 s'.world ∧
        s'.ctx = { s.ctx with fn := .exit, label := 0 } ∧ s'.frames = s.frames ∧
        (∀ p < s.ctx.bp, s'.stack p = s.stack p) ∧ Loads O n (units ++ [file]) s'.world more

end Spec.Compiled
