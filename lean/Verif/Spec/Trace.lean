import Verif.Model.Trace
/-
What a trace should contain.
-/
namespace Spec.Trace
open Cora.Trace

/-- which file is open, and what was traced to each file since it was opened -/
structure Log where
  cur : Option Path
  events : Path → Option (List Event)

/-- An event is recorded in the file that is open when it happens. Opening a file starts it anew; `none` means that it was never
opened. -/
def Log.after (l : Log) : Op → Log
  | .enable p true => { cur := some p, events := fun q => if q = p then some [] else l.events q }
  | .enable _ false => { l with cur := none }
  | .disable => { l with cur := none }
  | .exit => { l with cur := none }
  | .emit e =>
    match l.cur with
    | some p => { l with events := fun q => if q = p then (l.events q).map (· ++ [e]) else l.events q }
    | none => l

/-- nothing has been traced -/
def Log.empty : Log := ⟨none, fun _ => none⟩

/-- the trace is off whenever it is turned on -/
def OneAtATime : Option Path → List Op → Prop
  | _, [] => True
  | cur, .enable p ok :: r => cur = none ∧ OneAtATime (if ok then some p else none) r
  | _, .disable :: r => OneAtATime none r
  | _, .exit :: r => OneAtATime none r
  | cur, .emit _ :: r => OneAtATime cur r

/-- a name that fits: it is that of a C string of less than 255 bytes -/
def NameOk (e : Event) : Prop := e.name.length < 255 ∧ 0 ∉ e.name

/-- the events are beginnings and ends of calls, with names that fit -/
def OpOk : Op → Prop
  | .emit e => (e.ph = 66 ∨ e.ph = 69) ∧ NameOk e
  | _ => True

end Spec.Trace
