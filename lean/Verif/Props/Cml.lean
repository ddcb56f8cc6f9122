import Verif.Model.Cml
/-
C66: cooperative tasks take turns.
-/
open Spec
namespace Cora.Cml

variable {T W : Type} {slice : T → W → Slice T W}

/-- holds of every state of the scheduler -/
structure Good (s : St T W) : Prop where
  waiting : s.mode = .schedule → 0 < s.frames
  done : s.frames = 0 → s.tasks.queue = []

theorem good_entry (main : T) (w : W) : Good (entry main w) := ⟨fun _ => by simp [entry, St.loop], fun h => by cases h⟩

/-- a step is a turn or changes neither the queue nor the world -/
theorem step_turn {s s' : St T W} (hg : Good s) (h : s.step slice = some s') :
    Good s' ∧ (s.mode = .schedule → s'.tasks = s.tasks.turn slice) ∧ (s.mode = .ret → s'.tasks = s.tasks) := by
  obtain ⟨f, m, q, w⟩ := s
  cases m with
  | schedule =>
    have hf : 0 < f := hg.waiting rfl
    simp only [St.step] at h
    cases h
    refine ⟨?_, fun _ => ?_, fun h => by cases h⟩
    · cases q with
      | nil => exact ⟨(fun h => by cases h), fun _ => rfl⟩
      | cons t q =>
        simp only [St.scheduleStep]
        split
        · exact ⟨(fun h => by cases h), fun h => by simp at h; omega⟩
        · exact ⟨fun _ => by simp [St.yield, St.loop], fun h => by simp [St.yield, St.loop] at h⟩
        · exact ⟨fun _ => hf, fun h => by simp at h; omega⟩
    · cases q with
      | nil => rfl
      | cons t q =>
        simp only [St.scheduleStep, Tasks.turn]
        split <;> rename_i e <;> simp [e, St.yield, St.loop]
  | ret =>
    cases f with
    | zero => simp [St.step] at h
    | succ n =>
      simp only [St.step] at h
      split at h
      · rename_i he
        cases h
        exact ⟨⟨(fun h => by cases h), fun _ => by simpa using he⟩, (fun h => by cases h), fun _ => rfl⟩
      · cases h
        exact ⟨⟨fun _ => by simp [St.loop], fun h => by simp [St.loop] at h⟩, (fun h => by cases h), fun _ => rfl⟩

theorem steps_snoc (n : Nat) (s : St T W) :
    St.steps slice (n + 1) s = ((St.steps slice n s).step slice).getD (St.steps slice n s) := by
  induction n generalizing s with
  | zero => simp only [St.steps]; cases s.step slice <;> rfl
  | succ n ih =>
    rw [St.steps]
    cases h : s.step slice with
    | none =>
      have : St.steps slice (n + 1) s = s := by rw [St.steps, h]
      rw [this, h]; rfl
    | some s' =>
      simp only
      rw [ih s']
      have : St.steps slice (n + 1) s = St.steps slice n s' := by rw [St.steps, h]
      rw [this]

theorem steps_add (a b : Nat) (s : St T W) : St.steps slice (a + b) s = St.steps slice b (St.steps slice a s) := by
  induction a generalizing s with
  | zero => simp [St.steps]
  | succ a ih =>
    rw [Nat.succ_add, St.steps, St.steps]
    cases h : s.step slice with
    | none =>
      simp only
      cases b with
      | zero => rfl
      | succ b => rw [St.steps, h]
    | some s' => exact ih s'

theorem turns_snoc (n : Nat) (s : Tasks T W) : Tasks.turns slice (n + 1) s = (Tasks.turns slice n s).turn slice := by
  induction n generalizing s with
  | zero => rfl
  | succ n ih => rw [Tasks.turns, ih]; rfl

theorem steps_good (k : Nat) (main : T) (w : W) : Good (St.steps slice k (entry main w)) := by
  induction k with
  | zero => exact good_entry main w
  | succ k ih =>
    rw [steps_snoc]
    cases h : (St.steps slice k (entry main w)).step slice with
    | none => exact ih
    | some s' => exact (step_turn ih h).1

/-- whenever one looks, the queue and the world are what some number of turns gives: nothing but turns happens -/
theorem C66_only_turns (main : T) (w : W) (k : Nat) :
    ∃ n ≤ k, (St.steps slice k (entry main w)).tasks = Tasks.turns slice n ⟨[main], w⟩ := by
  induction k with
  | zero => exact ⟨0, Nat.le_refl _, rfl⟩
  | succ k ih =>
    obtain ⟨n, hn, ih⟩ := ih
    rw [steps_snoc]
    cases h : (St.steps slice k (entry main w)).step slice with
    | none => exact ⟨n, by omega, ih⟩
    | some s' =>
      obtain ⟨_, h1, h2⟩ := step_turn (steps_good k main w) h
      cases hm : (St.steps slice k (entry main w)).mode with
      | schedule =>
        refine ⟨n + 1, by omega, ?_⟩
        rw [turns_snoc, ← ih]
        exact h1 hm
      | ret => exact ⟨n, by omega, (h2 hm).trans ih⟩

/-- every turn happens, after at most twice as many steps -/
theorem C66_every_turn (main : T) (w : W) (n : Nat) :
    ∃ k ≤ 2 * n, (St.steps slice k (entry main w)).tasks = Tasks.turns slice n ⟨[main], w⟩ := by
  induction n with
  | zero => exact ⟨0, Nat.le_refl _, rfl⟩
  | succ n ih =>
    obtain ⟨k, hk, ih⟩ := ih
    rw [turns_snoc, ← ih]
    have hg := steps_good (slice := slice) k main w
    cases hq : (St.steps slice k (entry main w)).tasks.queue with
    | nil => exact ⟨k, by omega, by simp only [Tasks.turn, hq]⟩
    | cons t q =>
      cases hm : (St.steps slice k (entry main w)).mode with
      | schedule =>
        refine ⟨k + 1, by omega, ?_⟩
        rw [steps_snoc]
        cases h : (St.steps slice k (entry main w)).step slice with
        | none => simp only [St.step, hm] at h; cases h
        | some s' => exact (step_turn hg h).2.1 hm
      | ret =>
        have hf : (St.steps slice k (entry main w)).frames ≠ 0 := fun h => by rw [hg.done h] at hq; cases hq
        obtain ⟨f, hf⟩ := Nat.exists_eq_succ_of_ne_zero hf
        have h : (St.steps slice k (entry main w)).step slice =
            some (St.loop f (St.steps slice k (entry main w)).tasks) := by
          simp only [St.step, hm, hf, hq, List.isEmpty_cons]
          rfl
        refine ⟨k + 2, by omega, ?_⟩
        have e : St.steps slice (k + 1) (entry main w) = St.loop f (St.steps slice k (entry main w)).tasks := by
          rw [steps_snoc, h]; rfl
        rw [steps_snoc, e]
        have hg' := steps_good (slice := slice) (k + 1) main w
        rw [e] at hg'
        cases h' : (St.loop f (St.steps slice k (entry main w)).tasks).step slice with
        | none => simp only [St.step, St.loop] at h'; cases h'
        | some s' => exact (step_turn hg' h').2.1 rfl

/-- a task that is ready gets its turn after those before it, whatever they do: with `pre` before it, it is the first
after that many turns -/
theorem C66_no_starvation (s : Tasks T W) (pre post : List T) (t : T) (h : s.queue = pre ++ t :: post) :
    ∃ post', (Tasks.turns slice pre.length s).queue = t :: (post ++ post') := by
  induction pre generalizing s post with
  | nil => exact ⟨[], by simpa [Tasks.turns] using h⟩
  | cons x pre ih =>
    have h1 : ∃ more, (s.turn slice).queue = pre ++ t :: (post ++ more) := by
      simp only [Tasks.turn, h, List.cons_append]
      split
      · rename_i t' _
        exact ⟨(slice x s.world).ready ++ [t'], by simp⟩
      · exact ⟨(slice x s.world).ready, by simp⟩
    obtain ⟨more, h1⟩ := h1
    obtain ⟨post', h2⟩ := ih (s.turn slice) (post ++ more) h1
    exact ⟨more ++ post', by rw [List.length_cons, Tasks.turns, h2]; simp⟩

theorem drain (f : Nat) (m : Mode) (w : W) :
    ∃ k, (St.steps slice k ⟨f, m, ⟨[], w⟩⟩).step slice = none ∧ (St.steps slice k ⟨f, m, ⟨[], w⟩⟩).tasks = ⟨[], w⟩ := by
  induction f generalizing m with
  | zero =>
    cases m with
    | schedule => exact ⟨1, rfl, rfl⟩
    | ret => exact ⟨0, rfl, rfl⟩
  | succ f ih =>
    obtain ⟨k, h1, h2⟩ := ih .ret
    cases m with
    | schedule => exact ⟨k + 2, h1, h2⟩
    | ret => exact ⟨k + 1, h1, h2⟩

/-- `cml-entry` returns exactly when the tasks have run until none is ready -/
theorem C66_returns (main : T) (w : W) :
    (∀ k, (St.steps slice k (entry main w)).step slice = none → (St.steps slice k (entry main w)).tasks.queue = []) ∧
    ∀ n, (Tasks.turns slice n ⟨[main], w⟩).queue = [] →
      ∃ k, (St.steps slice k (entry main w)).step slice = none ∧
        (St.steps slice k (entry main w)).tasks = Tasks.turns slice n ⟨[main], w⟩ := by
  constructor
  · intro k h
    have hg := steps_good (slice := slice) k main w
    generalize St.steps slice k (entry main w) = s at h hg
    obtain ⟨f, m, ts⟩ := s
    cases m with
    | schedule => simp [St.step] at h
    | ret =>
      cases f with
      | zero => exact hg.done rfl
      | succ f => simp only [St.step] at h; split at h <;> cases h
  · intro n hn
    obtain ⟨k, _, hk⟩ := C66_every_turn (slice := slice) main w n
    generalize hs : St.steps slice k (entry main w) = s at hk
    obtain ⟨f, m, q, w'⟩ := s
    have hq : q = [] := by rw [← hn, ← hk]
    subst hq
    obtain ⟨j, h1, h2⟩ := drain (slice := slice) f m w'
    refine ⟨k + j, ?_, ?_⟩
    · rw [steps_add, hs]; exact h1
    · rw [steps_add, hs, h2]; exact hk

/-- a task that yields for ever: every turn leaves one more call waiting on the stack -/
theorem C66_stack_grows_wrong (n : Nat) :
    (St.steps (fun (_ : Unit) (w : Nat) => ⟨w + 1, [], .yields ()⟩) n (entry () 0)).frames = n + 1 ∧
    Tasks.turns (fun (_ : Unit) (w : Nat) => ⟨w + 1, [], .yields ()⟩) n ⟨[()], 0⟩ = ⟨[()], n⟩ := by
  have h : ∀ f w, St.steps (fun (_ : Unit) (w : Nat) => ⟨w + 1, [], .yields ()⟩) n ⟨f + 1, .schedule, ⟨[()], w⟩⟩ =
      ⟨f + n + 1, .schedule, ⟨[()], w + n⟩⟩ := by
    induction n with
    | zero => intro f w; rfl
    | succ n ih =>
      intro f w
      rw [St.steps]
      show St.steps _ n ⟨f + 1 + 1, .schedule, ⟨[()], w + 1⟩⟩ = _
      rw [ih]
      congr 2 <;> omega
  have h2 : ∀ w, Tasks.turns (fun (_ : Unit) (w : Nat) => ⟨w + 1, [], .yields ()⟩) n ⟨[()], w⟩ = ⟨[()], w + n⟩ := by
    clear h
    induction n with
    | zero => intro w; rfl
    | succ n ih =>
      intro w
      rw [Tasks.turns]
      show Tasks.turns _ n ⟨[()], w + 1⟩ = _
      rw [ih]
      congr 1; omega
  refine ⟨?_, by simpa using h2 0⟩
  show (St.steps _ n ⟨0 + 1, .schedule, ⟨[()], 0⟩⟩).frames = _
  rw [h]; simp

/-- three tasks that log their turns and yield: the log alternates, and the scheduler returns -/
example : let slice : Nat × Nat → List Nat → Slice (Nat × Nat) (List Nat) := fun t w =>
      ⟨w ++ [t.1], if t = (0, 2) then [(1, 2), (2, 1)] else [], if t.2 = 0 then .over else .yields (t.1, t.2 - 1)⟩
    Tasks.turns slice 8 ⟨[(0, 2)], []⟩ = ⟨[], [0, 1, 2, 0, 1, 2, 0, 1]⟩ := rfl

end Cora.Cml
