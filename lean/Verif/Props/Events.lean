import Verif.Model.CmlEvents
/-
C108: tasks that wait for the outside world.
-/
open Spec
namespace Cora.CmlEvents

open Cml (Mode)

variable {T W : Type} {act : T → W → Turn T W}

theorem look_spec (l : List (Source T W)) (s : Tasks T W) (b : Bool) :
    ∃ b' s', l.foldl (fun acc sched => let res := sched.look acc.2.world; (acc.1 || res.more, acc.2.sees res)) (b, s) =
      (b || b', s') ∧ LookAll l s b' s' := by
  induction l generalizing s b with
  | nil => exact ⟨false, s, by simp, .nil s⟩
  | cons c l ih =>
    obtain ⟨b', s', h1, h2⟩ := ih (s.sees (c.look s.world)) (b || (c.look s.world).more)
    exact ⟨_, s', by rw [List.foldl_cons, h1, Bool.or_assoc], .cons h2⟩

theorem runLook_spec (l : List (Source T W)) (s : Tasks T W) : LookAll l s (runLook l s).1 (runLook l s).2 := by
  obtain ⟨b, s', h1, h2⟩ := look_spec l s false
  unfold runLook
  rw [h1]
  simpa using h2

/-- looking only adds tasks at the end -/
theorem look_queue {l : List (Source T W)} {s s' : Tasks T W} {b : Bool} (h : LookAll l s b s') :
    ∃ more, s'.queue = s.queue ++ more := by
  induction h with
  | nil s => exact ⟨[], by simp⟩
  | cons _ ih => obtain ⟨m, ih⟩ := ih; exact ⟨_, by rw [ih, Tasks.sees, List.append_assoc]⟩

theorem look_honest {l : List (Source T W)} {s s' : Tasks T W} {b : Bool} (h : LookAll l s b s')
    (hl : ∀ c ∈ l, c.Honest) (hb : b = false) : s'.queue = s.queue := by
  induction h with
  | nil s => rfl
  | @cons c l s b s' _ ih =>
    simp only [Bool.or_eq_false_iff] at hb
    rw [ih (fun c hc => hl c (by simp [hc])) hb.2, Tasks.sees, hl c (by simp) _ hb.1]
    simp

theorem foldl_none (l : List (Source T W)) :
    l.foldl (fun (acc : Option (Tasks T W)) sched => acc.bind fun s => (sched.wait s.world).map s.sees) none = none := by
  induction l with
  | nil => rfl
  | cons c l ih => simpa using ih

theorem runWait_spec (l : List (Source T W)) (s s' : Tasks T W) : runWait l s = some s' ↔ WaitEach l s s' := by
  induction l generalizing s with
  | nil =>
    simp only [runWait, List.foldl_nil, Option.some.injEq]
    exact ⟨fun h => h ▸ .nil s, fun h => by cases h; rfl⟩
  | cons c l ih =>
    simp only [runWait, List.foldl_cons, Option.bind_some]
    cases h : c.wait s.world with
    | none =>
      simp only [Option.map_none, foldl_none]
      exact ⟨(by simp), fun h' => by cases h' with | cons h1 _ => rw [h] at h1; cases h1⟩
    | some r =>
      rw [Option.map_some]
      refine (ih (s.sees r)).trans ⟨fun h' => .cons h h', fun h' => ?_⟩
      cases h' with | cons h1 h2 => rw [h] at h1; cases h1; exact h2

theorem registers (l scheds : List (Source T W)) : l.foldl register scheds = l.reverse ++ scheds := by
  induction l generalizing scheds with
  | nil => rfl
  | cons c l ih => rw [List.foldl_cons, ih]; simp [register]

/-- the state as the specification sees it -/
def St.view (s : St T W) : System T W := ⟨s.tasks, s.scheds.reverse⟩

theorem step_happens {s s' : St T W} (h : step act s = .goes s') :
    s'.view = s.view ∨ Happens WaitEach act s.view s'.view := by
  obtain ⟨f, m, ts, sc⟩ := s
  have hlook := runLook_spec sc ts
  cases m with
  | schedule =>
    simp only [step, schedule] at h
    split at h
    · rename_i hq
      have hq0 : ts.queue = [] := by
        obtain ⟨m, hm⟩ := look_queue hlook
        rw [hq] at hm
        exact (List.append_eq_nil_iff.1 hm.symm).1
      split at h
      · rename_i hb
        split at h
        · cases h
        · rename_i s2 hw
          cases h
          right
          rw [hb] at hlook
          refine .wait (m := (runLook sc ts).2) ?_ hq ?_
          · simpa [St.view] using hlook
          · simpa [St.view] using (runWait_spec _ _ _).1 hw
      · cases h
        right
        exact .look hq0 (b := (runLook sc ts).1) (by simpa [St.view] using hlook)
    · rename_i t q hq
      have : s'.view = ⟨(runLook sc ts).2.turn fun t w => (act t w).did,
          (St.view ⟨f, .schedule, ts, sc⟩).sources ++ (act t (runLook sc ts).2.world).joins⟩ := by
        simp only [Tasks.turn, hq]
        split at h <;> rename_i e <;> cases h <;> simp [St.view, loop, e, registers]
      right
      rw [this]
      exact .turn (b := (runLook sc ts).1) (by simpa [St.view] using hlook) hq
  | ret =>
    cases f with
    | zero => simp [step] at h
    | succ n =>
      simp only [step] at h
      split at h
      · rename_i hq
        right
        split at h <;> cases h <;>
          exact .look (by simpa [St.view] using hq) (b := (runLook sc ts).1) (by simpa [St.view, loop] using hlook)
      · cases h
        left; rfl

theorem steps_snoc (n : Nat) (s : St T W) :
    steps act (n + 1) s = match step act (steps act n s) with | .goes s' => s' | _ => steps act n s := by
  induction n generalizing s with
  | zero => simp only [steps]; cases step act s <;> rfl
  | succ n ih =>
    rw [steps]
    cases h : step act s with
    | goes s' =>
      simp only
      rw [ih s']
      have : steps act (n + 1) s = steps act n s' := by rw [steps, h]
      rw [this]
    | _ =>
      have : steps act (n + 1) s = s := by rw [steps, h]
      rw [this, h]

/-- what has happened after any number of steps: turns, each after a look at every source that is registered, the
latest first, and looks and waits when no task was ready -/
theorem C108_rounds (init : List (Source T W)) (main : T) (w : W) (k : Nat) :
    Happened WaitEach act ⟨⟨[main], w⟩, init⟩ (steps act k (entry init main w)).view := by
  induction k with
  | zero => simpa [entry, loop, steps, St.view, registers] using Happened.refl (System.mk ⟨[main], w⟩ init)
  | succ k ih =>
    rw [steps_snoc]
    cases h : step act (steps act k (entry init main w)) with
    | goes s' =>
      rcases step_happens h with e | e
      · simp only [e]; exact ih
      · exact .more ih e
    | _ => exact ih

theorem wait_one {l : List (Source T W)} (hl : l.length ≤ 1) {s s' : Tasks T W} (hs : s.queue = [])
    (h : WaitEach l s s') : WaitIdle l s s' := by
  cases h with
  | nil => exact .nil _
  | cons h1 h2 =>
    rename_i c l r
    have : l = [] := by
      cases l with
      | nil => rfl
      | cons _ _ => simp at hl
    subst this
    cases h2
    exact .cons hs h1 (.nil _)

theorem happened_one {s s' : System T W} (h : Happened WaitEach act s s') (hs : s.sources.length ≤ 1)
    (ha : ∀ t w, (act t w).joins = []) : Happened WaitIdle act s s' ∧ s'.sources.length ≤ 1 := by
  induction h with
  | refl => exact ⟨.refl _, hs⟩
  | more _ h ih =>
    obtain ⟨ih, hl⟩ := ih
    cases h with
    | turn h1 h2 => exact ⟨.more ih (.turn h1 h2), by simpa [ha] using hl⟩
    | look h1 h2 => exact ⟨.more ih (.look h1 h2), hl⟩
    | wait h1 h2 h3 => exact ⟨.more ih (.wait h1 h2 (wait_one (by simpa using hl) h2 h3)), hl⟩

/-- with one source, as in a program that uses lib/async: one waits only when no task is ready. For several sources
see `C108_waits_wrong`. -/
theorem C108_waits_partial (init : List (Source T W)) (hi : init.length ≤ 1) (ha : ∀ t w, (act t w).joins = [])
    (main : T) (w : W) (k : Nat) :
    Happened WaitIdle act ⟨⟨[main], w⟩, init⟩ (steps act k (entry init main w)).view :=
  (happened_one (C108_rounds init main w k) hi ha).1

/-- the sources of every state are honest if those that are registered are -/
theorem happened_sources {P : Source T W → Prop} {Waits} {s s' : System T W} (h : Happened Waits act s s')
    (hs : ∀ c ∈ s.sources, P c) (ha : ∀ t w, ∀ c ∈ (act t w).joins, P c) : ∀ c ∈ s'.sources, P c := by
  induction h with
  | refl => exact hs
  | more _ h ih =>
    cases h with
    | turn h1 h2 =>
      intro c hc
      rcases List.mem_append.1 hc with hc | hc
      · exact ih c hc
      · exact ha _ _ c hc
    | look => exact ih
    | wait => exact ih

/-- holds of every state of the scheduler -/
structure Good (s : St T W) : Prop where
  waiting : s.mode = .schedule → 0 < s.frames
  done : s.frames = 0 → ∃ m : Tasks T W, m.queue = [] ∧ LookAll s.scheds m false s.tasks

theorem good_step {s s' : St T W} (hg : Good s) (h : step act s = .goes s') : Good s' := by
  obtain ⟨f, m, ts, sc⟩ := s
  have hlook := runLook_spec sc ts
  cases m with
  | schedule =>
    have hf : 0 < f := hg.waiting rfl
    simp only [step, schedule] at h
    split at h
    · split at h
      · split at h
        · cases h
        · cases h
          exact ⟨(fun h => by cases h), fun h => by simp at h; omega⟩
      · cases h
        exact ⟨(fun h => by cases h), fun h => by simp at h; omega⟩
    · split at h <;> cases h
      · exact ⟨(fun h => by cases h), fun h => by simp at h; omega⟩
      · exact ⟨fun _ => by simp [loop], fun h => by simp [loop] at h⟩
      · exact ⟨fun _ => hf, fun h => by simp at h; omega⟩
  | ret =>
    cases f with
    | zero => simp [step] at h
    | succ n =>
      simp only [step] at h
      split at h
      · rename_i hq
        split at h
        · cases h
          exact ⟨fun _ => by simp [loop], fun h => by simp [loop] at h⟩
        · rename_i hb
          cases h
          refine ⟨(fun h => by cases h), fun _ => ⟨ts, by simpa using hq, ?_⟩⟩
          simpa [hb] using hlook
      · cases h
        exact ⟨fun _ => by simp [loop], fun h => by simp [loop] at h⟩

theorem good_steps {s : St T W} (hg : Good s) (k : Nat) : Good (steps act k s) := by
  induction k with
  | zero => exact hg
  | succ k ih =>
    rw [steps_snoc]
    cases h : step act (steps act k s) with
    | goes s' => exact good_step ih h
    | _ => exact ih

theorem good_entry (init : List (Source T W)) (main : T) (w : W) : Good (entry init main w) :=
  ⟨fun _ => by simp [entry, loop], fun h => by simp [entry, loop] at h⟩

/-- `cml-entry` returns only when no task was ready and then, looked at, every source said that no more will come; no
task is ready then if the sources are honest -/
theorem C108_returns (init : List (Source T W)) (main : T) (w : W) (k : Nat)
    (h : step act (steps act k (entry init main w)) = .ends) :
    let s := (steps act k (entry init main w)).view
    (∃ m : Tasks T W, m.queue = [] ∧ LookAll s.sources.reverse m false s.tasks) ∧
    ((∀ c ∈ init, c.Honest) → (∀ t w, ∀ c ∈ (act t w).joins, c.Honest) → s.tasks.queue = []) := by
  have hg := good_steps (act := act) (good_entry init main w) k
  have hr := C108_rounds (act := act) init main w k
  have h1 : ∃ m : Tasks T W, m.queue = [] ∧
      LookAll (steps act k (entry init main w)).scheds m false (steps act k (entry init main w)).tasks := by
    refine hg.done ?_
    generalize steps act k (entry init main w) = s at h
    obtain ⟨f, m, ts, sc⟩ := s
    cases m with
    | schedule =>
      simp only [step, schedule] at h
      split at h
      · split at h
        · split at h <;> cases h
        · cases h
      · split at h <;> cases h
    | ret =>
      cases f with
      | zero => rfl
      | succ n =>
        simp only [step] at h
        split at h
        · split at h <;> cases h
        · cases h
  refine ⟨by simpa [St.view] using h1, fun hi ha => ?_⟩
  obtain ⟨m, hm, hl⟩ := h1
  have hs := happened_sources hr hi ha
  have := look_honest hl (fun c hc => hs c (by simpa [St.view] using hc)) rfl
  show (steps act k (entry init main w)).tasks.queue = []
  rw [this, hm]

theorem steps_add (a b : Nat) (s : St T W) : steps act (a + b) s = steps act b (steps act a s) := by
  induction a generalizing s with
  | zero => simp [steps]
  | succ a ih =>
    rw [Nat.succ_add, steps, steps]
    cases h : step act s with
    | goes s' => exact ih s'
    | _ =>
      simp only
      cases b with
      | zero => rfl
      | succ b => rw [steps, h]

theorem look_quiet {w : W} (l : List (Source T W)) (h : ∀ c ∈ l, c.look w = ⟨w, [], false⟩) :
    runLook l (⟨[], w⟩ : Tasks T W) = (false, ⟨[], w⟩) := by
  induction l with
  | nil => rfl
  | cons c l ih =>
    have hc := h c (by simp)
    have ih := ih fun c hc => h c (by simp [hc])
    simp only [runLook, List.foldl_cons, hc, Tasks.sees] at ih ⊢
    exact ih

/-- when no task is ready and no source has anything, `cml-entry` returns -/
theorem C108_ends (init : List (Source T W)) (main : T) (w : W) (k : Nat) (w' : W)
    (hq : (steps act k (entry init main w)).view.tasks = ⟨[], w'⟩)
    (hs : ∀ c ∈ (steps act k (entry init main w)).view.sources, c.look w' = ⟨w', [], false⟩) :
    ∃ j ≥ k, step act (steps act j (entry init main w)) = .ends ∧
      (steps act j (entry init main w)).view.tasks = ⟨[], w'⟩ := by
  have key : ∀ (f : Nat) (m : Mode) (sc : List (Source T W)), (∀ c ∈ sc, c.look w' = ⟨w', [], false⟩) →
      ∃ j, step act (steps act j ⟨f, m, ⟨[], w'⟩, sc⟩) = .ends ∧
        (steps act j ⟨f, m, ⟨[], w'⟩, sc⟩).tasks = ⟨[], w'⟩ := by
    intro f
    induction f with
    | zero =>
      intro m sc h
      cases m with
      | schedule =>
        have e : steps act 1 ⟨0, .schedule, ⟨[], w'⟩, sc⟩ = ⟨0, .ret, ⟨[], w'⟩, sc⟩ := by
          simp [steps, step, schedule, look_quiet sc h]
        exact ⟨1, by rw [e]; rfl, by rw [e]⟩
      | ret => exact ⟨0, rfl, rfl⟩
    | succ f ih =>
      intro m sc h
      obtain ⟨j, h1, h2⟩ := ih .ret sc h
      have e1 : steps act 1 ⟨f + 1, .ret, ⟨[], w'⟩, sc⟩ = ⟨f, .ret, ⟨[], w'⟩, sc⟩ := by
        simp [steps, step, look_quiet sc h]
      cases m with
      | schedule =>
        have e : steps act 1 ⟨f + 1, .schedule, ⟨[], w'⟩, sc⟩ = ⟨f + 1, .ret, ⟨[], w'⟩, sc⟩ := by
          simp [steps, step, schedule, look_quiet sc h]
        refine ⟨1 + (1 + j), ?_, ?_⟩
        · rw [steps_add, e, steps_add, e1]; exact h1
        · rw [steps_add, e, steps_add, e1]; exact h2
      | ret =>
        refine ⟨1 + j, ?_, ?_⟩
        · rw [steps_add, e1]; exact h1
        · rw [steps_add, e1]; exact h2
  generalize hx : steps act k (entry init main w) = s at hq hs
  obtain ⟨f, m, ts, sc⟩ := s
  simp only [St.view] at hq hs
  subst hq
  obtain ⟨j, h1, h2⟩ := key f m sc (by simpa using hs)
  refine ⟨k + j, by omega, ?_, ?_⟩
  · rw [steps_add, hx]; exact h1
  · rw [steps_add, hx]; exact h2

/-- a task that is ready comes first after those before it have had their turns, in at most twice as many steps,
whatever they do and whatever the sources bring -/
theorem C108_no_starvation (init : List (Source T W)) (hi : ∀ c ∈ init, c.Honest)
    (ha : ∀ t w, ∀ c ∈ (act t w).joins, c.Honest) (main : T) (w : W) (k : Nat) (pre post : List T) (t : T)
    (hq : (steps act k (entry init main w)).view.tasks.queue = pre ++ t :: post) :
    ∃ j, k ≤ j ∧ j ≤ k + 2 * pre.length ∧
      ∃ more, (steps act j (entry init main w)).view.tasks.queue = t :: (post ++ more) := by
  induction pre generalizing k post with
  | nil => exact ⟨k, by omega, by omega, [], by simpa using hq⟩
  | cons x pre ih =>
    have hg := good_steps (act := act) (good_entry init main w) k
    have hend : step act (steps act k (entry init main w)) ≠ .ends := fun h => by
      have := (C108_returns init main w k h).2 hi ha
      rw [hq] at this; cases this
    -- a step from `schedule` with this queue is a turn of `x`
    have turn : ∀ (s : St T W) (post : List T), s.mode = .schedule → s.tasks.queue = x :: pre ++ t :: post →
        ∃ s', step act s = .goes s' ∧ ∃ more, s'.tasks.queue = pre ++ t :: (post ++ more) := by
      intro s post hm hq
      obtain ⟨f, m, ts, sc⟩ := s
      cases hm
      obtain ⟨add, hl⟩ := look_queue (runLook_spec sc ts)
      simp only at hq
      rw [hq] at hl
      simp only [step, schedule, hl, List.cons_append]
      split
      · exact ⟨_, rfl, add ++ (act x (runLook sc ts).2.world).did.ready, by simp⟩
      · rename_i y _
        exact ⟨_, rfl, add ++ ((act x (runLook sc ts).2.world).did.ready ++ [y]), by simp [loop]⟩
      · exact ⟨_, rfl, add ++ (act x (runLook sc ts).2.world).did.ready, by simp⟩
    have next : ∃ d, 1 ≤ d ∧ d ≤ 2 ∧ ∃ more,
        (steps act (k + d) (entry init main w)).tasks.queue = pre ++ t :: (post ++ more) := by
      cases hm : (steps act k (entry init main w)).mode with
      | schedule =>
        obtain ⟨s', h1, h2⟩ := turn _ post hm hq
        exact ⟨1, by omega, by omega, by rw [steps_snoc, h1]; exact h2⟩
      | ret =>
        have hst : ∃ s1, step act (steps act k (entry init main w)) = .goes s1 ∧ s1.mode = .schedule ∧
            s1.tasks = (steps act k (entry init main w)).tasks := by
          generalize steps act k (entry init main w) = s at hend hm hq
          obtain ⟨f, m, ts, sc⟩ := s
          simp only at hm; subst hm
          cases f with
          | zero => exact absurd rfl hend
          | succ n =>
            simp only [St.view] at hq
            simp only [step, hq]
            exact ⟨_, rfl, rfl, rfl⟩
        obtain ⟨s1, h1, h2, h3⟩ := hst
        obtain ⟨s', h4, h5⟩ := turn s1 post h2 (by rw [h3]; exact hq)
        refine ⟨2, by omega, by omega, ?_⟩
        rw [show k + 2 = (k + 1) + 1 from rfl, steps_snoc, steps_snoc, h1]
        simp only [h4]
        exact h5
    obtain ⟨d, hd1, hd2, more, hn⟩ := next
    obtain ⟨j, hj1, hj2, more', hj⟩ := ih (k + d) (post ++ more) hn
    exact ⟨j, by omega, by simp only [List.length_cons]; omega, more ++ more', by rw [hj, List.append_assoc]⟩

/-- with one source the program hangs only when no task is ready and the source that is waited for never brings
anything, although it said that more may come -/
theorem C108_hangs_partial (init : List (Source T W)) (hi : init.length ≤ 1) (ha : ∀ t w, (act t w).joins = [])
    (main : T) (w : W) (k : Nat) (h : step act (steps act k (entry init main w)) = .hangs) :
    ∃ c ∈ init, ∃ m : Tasks T W, m.queue = [] ∧ c.wait m.world = none ∧
      LookAll init (steps act k (entry init main w)).view.tasks true m := by
  have hsrc : (steps act k (entry init main w)).view.sources = init := by
    have hr := C108_rounds (act := act) init main w k
    generalize (steps act k (entry init main w)).view = v at hr
    have : ∀ {s s' : System T W}, Happened WaitEach act s s' → s'.sources = s.sources := by
      intro s s' h
      induction h with
      | refl => rfl
      | more _ h ih =>
        cases h with
        | turn => simpa [ha] using ih
        | look => exact ih
        | wait => exact ih
    exact this hr
  generalize steps act k (entry init main w) = s at h hsrc
  obtain ⟨f, m, ts, sc⟩ := s
  have hsc : sc = init := by
    rw [← hsrc] at hi
    simp only [St.view, List.length_reverse] at hsrc hi
    rcases sc with _ | ⟨c, _ | ⟨d, l⟩⟩
    · simpa using hsrc
    · simpa using hsrc
    · simp at hi
  have hlook := runLook_spec sc ts
  cases m with
  | schedule =>
    simp only [step, schedule] at h
    split at h
    · rename_i hq
      split at h
      · rename_i hb
        split at h
        · rename_i hw
          subst hsc
          rcases sc with _ | ⟨c, _ | ⟨d, l⟩⟩
          · simp [runWait] at hw
          · refine ⟨c, by simp, (runLook [c] ts).2, hq, ?_, by rw [hb] at hlook; exact hlook⟩
            simpa [runWait] using hw
          · simp at hi
        · cases h
      · cases h
    · split at h <;> cases h
  | ret =>
    cases f with
    | zero => simp [step] at h
    | succ n =>
      simp only [step] at h
      split at h
      · split at h <;> cases h
      · cases h

/-- `main` (task 0) blocks and has registered two sources. The latest brings task 1 when one waits for it; the other
never brings anything. -/
def busy : Source Nat Nat := ⟨fun w => ⟨w, [], true⟩, fun w => some ⟨w, [1], true⟩⟩
def silent : Source Nat Nat := ⟨fun w => ⟨w, [], true⟩, fun _ => none⟩
def waits : Nat → Nat → Turn Nat Nat := fun t w => ⟨⟨w, [], .blocks⟩, if t = 0 then [silent, busy] else []⟩

/-- with two sources the program can hang although a task is ready: the second source is waited for after the first
has made a task ready. Waiting as one expects it would have run the task. -/
theorem C108_waits_wrong :
    let s := steps waits 1 (entry [] 0 7)
    step waits s = .hangs ∧
    (∃ m : Tasks Nat Nat, LookAll s.view.sources.reverse s.view.tasks true m ∧ m.queue = [] ∧
      WaitIdle s.view.sources.reverse m ⟨[1], 7⟩) ∧
    ¬ ∃ m m' : Tasks Nat Nat, LookAll s.view.sources.reverse s.view.tasks true m ∧
      WaitEach s.view.sources.reverse m m' := by
  have e : steps waits 1 (entry [] 0 7) = ⟨1, .schedule, ⟨[], 7⟩, [busy, silent]⟩ := rfl
  intro s
  have hs : s = ⟨1, .schedule, ⟨[], 7⟩, [busy, silent]⟩ := e
  rw [hs]
  refine ⟨rfl, ⟨⟨[], 7⟩, .cons (c := busy) (b := true) (.cons (c := silent) (b := false) (.nil _)), rfl,
    .cons (c := busy) rfl rfl (.ready (by simp [Tasks.sees]))⟩, ?_⟩
  rintro ⟨m, m', _, h⟩
  cases h with
  | cons _ h => cases h with | cons h _ => cases h

/-- an event loop with two events: it answers true while events are outstanding, and brings the task of an event when
one waits. `main` blocks; each event's task logs it. `cml-entry` returns with both events handled. -/
def eventLoop : Source Nat (List Nat × List Nat) :=
  ⟨fun w => ⟨w, [], !w.1.isEmpty⟩,
   fun w => match w.1 with | [] => some ⟨w, [], false⟩ | e :: l => some ⟨(l, w.2), [e], true⟩⟩
def logs : Nat → List Nat × List Nat → Turn Nat (List Nat × List Nat) := fun t w =>
  ⟨⟨(w.1, w.2 ++ [t]), [], if t = 0 then .blocks else .over⟩, []⟩

example : let s := steps logs 20 (entry [eventLoop] 0 ([5, 6], []))
    s.view.tasks = ⟨[], ([], [0, 5, 6])⟩ ∧ step logs s = .ends := ⟨rfl, rfl⟩
example : eventLoop.Honest := fun _ _ => rfl
example : ∃ k, (steps logs k (entry [eventLoop] 0 ([5, 6], []))).view.tasks.queue = [] ++ 5 :: [] := ⟨2, rfl⟩
example : (steps logs 20 (entry [eventLoop] 0 ([5, 6], []))).view.tasks = ⟨[], ([], [0, 5, 6])⟩ ∧
    ∀ c ∈ (steps logs 20 (entry [eventLoop] 0 ([5, 6], []))).view.sources,
      c.look ([], [0, 5, 6]) = ⟨([], [0, 5, 6]), [], false⟩ := by
  refine ⟨rfl, fun c hc => ?_⟩
  have : c ∈ [eventLoop] := hc
  simp at this; subst this; rfl
/-- a source that promises more and never brings it -/
example : ∃ k, step (fun (_ : Nat) (w : Nat) => ⟨⟨w, [], .over⟩, []⟩) (steps (fun (_ : Nat) (w : Nat) => ⟨⟨w, [], .over⟩, []⟩)
    k (entry [silent] 0 7)) = .hangs := ⟨3, rfl⟩

end Cora.CmlEvents
