import Verif.Model.Packages
import Verif.Spec.History
/-
C104: what the variables of a thread hold, told from the history.
-/
namespace Spec.Pkg
open Cora Cora.Pkg

/-- what thread `t` has done with its variables; a library sets the variable that it names -/
def done (tables : Nat → List Key) (t : Nat) : List Act → List GOp
  | [] => []
  | .op u o :: r => if u = t then o :: done tables t r else done tables t r
  | .store u l slot v :: r =>
    if u = t then
      match (tables l)[slot]? with
      | some k => .set (.interned k) v :: done tables t r
      | none => done tables t r
    else done tables t r
  | _ :: r => done tables t r

/-- the value of variable `k` of thread `t` -/
def value (tables : Nat → List Key) (hist : List Act) (t : Nat) (k : Key) : Obj :=
  (lastSet (done tables t hist) (.interned k)).getD Undef

/-- the libraries that thread `t` has loaded; `cur` is the one that it is loading -/
def loaded (t : Nat) : Option Nat → List Act → List Nat
  | _, [] => []
  | cur, .enter u l :: r => if u = t then loaded t (some l) r else loaded t cur r
  | cur, .finish u :: r => if u = t then cur.toList ++ loaded t none r else loaded t cur r
  | cur, _ :: r => loaded t cur r

/-- a thread that is giving a library its number -/
def Numbering (s : State) (t : Nat) : Prop := ∃ l, s.at' t = .alloc l ∨ (∃ v, s.at' t = .got l v) ∨ ∃ v, s.at' t = .wrote l v

/-- at no moment two threads are giving libraries their numbers -/
def OneByOne (tables : Nat → List Key) : State → List Act → Prop
  | s, hist => (∀ t u, Numbering s t → Numbering s u → t = u) ∧
      match hist with
      | [] => True
      | a :: r => ∀ s', step tables s a = some s' → OneByOne tables s' r

end Spec.Pkg
