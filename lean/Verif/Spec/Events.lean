import Verif.Spec.Cml
/-
Cooperative tasks that also wait for the outside world (see Spec/Cml for tasks). What comes from outside comes from
sources: a source can be looked at, and one can wait for it.
-/
namespace Spec

variable {T W : Type}

/-- what a look at a source, or a wait for it, brings: the tasks that became ready, and whether more may come -/
structure Seen (T W : Type) where
  world : W
  ready : List T
  more : Bool

/-- a source of events; `wait` is `none` when nothing ever comes -/
structure Source (T W : Type) where
  look : W → Seen T W
  wait : W → Option (Seen T W)

/-- a source that says that no more will come has made nothing ready -/
def Source.Honest (c : Source T W) : Prop := ∀ w, (c.look w).more = false → (c.look w).ready = []

/-- a task in one go; `joins` are the sources it registers, in that order -/
structure Turn (T W : Type) where
  did : Slice T W
  joins : List (Source T W)

/-- the tasks that are ready, the world, and the sources in the order of their registration -/
structure System (T W : Type) where
  tasks : Tasks T W
  sources : List (Source T W)

/-- the tasks a source made ready go to the end of the queue -/
def Tasks.sees (s : Tasks T W) (r : Seen T W) : Tasks T W := ⟨s.queue ++ r.ready, r.world⟩

/-- each source of the list is looked at once, in order; the answer: does one of them say that more may come -/
inductive LookAll : List (Source T W) → Tasks T W → Bool → Tasks T W → Prop
  | nil (s) : LookAll [] s false s
  | cons {c l s b s'} : LookAll l (s.sees (c.look s.world)) b s' → LookAll (c :: l) s ((c.look s.world).more || b) s'

/-- waiting as one expects it: for one source after the other, and only as long as no task is ready -/
inductive WaitIdle : List (Source T W) → Tasks T W → Tasks T W → Prop
  | nil (s) : WaitIdle [] s s
  | ready {l s} : s.queue ≠ [] → WaitIdle l s s
  | cons {c l s r s'} : s.queue = [] → c.wait s.world = some r → WaitIdle l (s.sees r) s' → WaitIdle (c :: l) s s'

/-- waiting for every source of the list, one after the other, whether a task is ready or not -/
inductive WaitEach : List (Source T W) → Tasks T W → Tasks T W → Prop
  | nil (s) : WaitEach [] s s
  | cons {c l s r s'} : c.wait s.world = some r → WaitEach l (s.sees r) s' → WaitEach (c :: l) s s'

/-- what may happen: before every turn all sources are looked at, the latest first; one waits only when no task is
ready and a source said that more may come -/
inductive Happens (Waits : List (Source T W) → Tasks T W → Tasks T W → Prop) (act : T → W → Turn T W) :
    System T W → System T W → Prop
  | turn {s b m t q} : LookAll s.sources.reverse s.tasks b m → m.queue = t :: q →
      Happens Waits act s ⟨m.turn fun t w => (act t w).did, s.sources ++ (act t m.world).joins⟩
  | look {s b m} : s.tasks.queue = [] → LookAll s.sources.reverse s.tasks b m → Happens Waits act s ⟨m, s.sources⟩
  | wait {s m m'} : LookAll s.sources.reverse s.tasks true m → m.queue = [] → Waits s.sources.reverse m m' →
      Happens Waits act s ⟨m', s.sources⟩

/-- any number of these -/
inductive Happened (Waits : List (Source T W) → Tasks T W → Tasks T W → Prop) (act : T → W → Turn T W) :
    System T W → System T W → Prop
  | refl (s) : Happened Waits act s s
  | more {s m s'} : Happened Waits act s m → Happens Waits act m s' → Happened Waits act s s'

end Spec
