import Verif.Lemmas.GCReclaim2
/-
Property theorems C32, second half: what the program cannot reach is reclaimed within a bounded number of
collection cycles. True for small objects (C32_small_dead_partial, C32_small_reclaimed_partial); for large
objects there is a run that keeps one for hundreds of cycles (C32_large_kept_wrong).
-/
namespace Cora.GC
variable [Layout]
set_option linter.unusedSectionVars false

/-- An execution that starts at `c0`. The set says which of the objects that were unreachable at `c0` have
neither been freed nor reused since. When a cycle starts, the words scanned as roots may be anything except
references to those objects. -/
inductive Later (c0 : Config) : (SlotId → Prop) → Config → Prop where
  | nil : Later c0 (fun x => (c0.st.obj x).used = true ∧ ¬ Reach c0 x) c0
  | step {X c f c'} (h : Later c0 X c) (hs : Step c f c') (hn : ¬ (c.st.phase = .none ∧ c'.st.phase = .incr)) :
      Later c0 (fun x => X x ∧ ¬ f x) c'
  | start {X s s' held held'} (h : Later c0 X ⟨s, held⟩) (roots : List (Option SlotId)) (hp : s.phase = .none)
      (hh : ∀ x ∈ held', x ∈ held ∧ some x ∈ roots) (hr : ∀ x, some x ∈ roots → ¬ X x)
      (hm : gcMarkRoot s roots = some s') : Later c0 X ⟨s', held'⟩

/-- the number of collection cycles completed between two states: each one advances the version by 2 -/
def cycles (c0 c : Config) : Nat := (c.st.version - c0.st.version) / 2

/-- what is known about the unreachable objects, relative to the first multiple `N` of 24 after the version at
the beginning -/
def Stage (N : Nat) (c : Config) (X : SlotId → Prop) : Prop :=
  (c.st.version < N ∨ (c.st.version = N ∧ c.st.phase = .none)) ∨
  (c.st.version = N ∧ c.st.phase ≠ .none ∧ Clean c.st X ∧
    ∀ x : SlotId, Layout.large x.1 = false → X x → off c.st x = 0 ∨ 33 ≤ off c.st x) ∨
  (N + 2 ≤ c.st.version ∧ Clean c.st X ∧
    ∀ x : SlotId, Layout.large x.1 = false → X x → 33 ≤ off c.st x ∧ off c.st x + c.st.version ≤ 64 + N)

theorem stage_step {N : Nat} (hN : N % 24 = 0) {c c' : Config} {f : Freed} (hs : Step c f c') {G} (hI : Inv c.st c.held G)
    (hS : Small c.st) (hS' : Small c'.st) {X} (h : Garb c X) (h' : Garb c' (fun x => X x ∧ ¬ f x))
    (hn : ¬ (c.st.phase = .none ∧ c'.st.phase = .incr)) (hst : Stage N c X) :
    Stage N c' (fun x => X x ∧ ¬ f x) := by
  obtain ⟨ht, hq⟩ := quiet_step hs hI h hn
  have hev := hI.base.even
  rcases hst with hA | hB | hC
  · left
    rcases ht with ⟨h1, h2⟩ | ⟨h1, h2, h3, -⟩
    · rw [h1, h2]; exact hA
    · rw [h1]
      rcases hA with hA | hA
      · by_cases e : c.st.version + 2 < N
        · exact .inl e
        · exact .inr ⟨by omega, h2⟩
      · exact absurd hA.2 h3
  · obtain ⟨hv, hp, hc, ho⟩ := hB
    have hq := hq hc
    rcases ht with ⟨h1, h2⟩ | ⟨h1, h2, h3, hg⟩
    · right; left
      refine ⟨by omega, fun e => hp (h2.mp e), fun x hx => ⟨(hq x hx.1 hx.2).1, (hq x hx.1 hx.2).2.1⟩, ?_⟩
      intro x hl hx
      rw [off_eqv (hq x hx.1 hx.2).2.2 h1]; exact ho x hl hx.1
    · right; right
      refine ⟨by omega, fun x hx => ⟨(hq x hx.1 hx.2).1, (hq x hx.1 hx.2).2.1⟩, ?_⟩
      intro x hl hx
      have hpar : off c.st x % 2 = 0 := by
        rw [off_odd _ hev]
        have : ¬ (c.st.obj x).version.ver % 2 = 1 := fun h' => by
          have := (hI.base.odd x).mp h'; rw [hg] at this; simp at this
        omega
      have hfl := off_flip (hq x hx.1 hx.2).2.2 h1 hev (hI.base.ver x) hpar
      have h64 : off c.st x < 64 := offV_lt _ _
      rcases ho x hl hx.1 with hz | hz
      · rw [hfl, if_pos hz]; omega
      · rw [if_neg (by omega)] at hfl
        have := hS'.stale hl (h'.used x hx) (by have := lim_le c'.st; omega)
        exact ⟨this, by omega⟩
  · obtain ⟨hv, hc, ho⟩ := hC
    have hq := hq hc
    right; right
    rcases ht with ⟨h1, h2⟩ | ⟨h1, h2, h3, hg⟩
    · refine ⟨by omega, fun x hx => ⟨(hq x hx.1 hx.2).1, (hq x hx.1 hx.2).2.1⟩, ?_⟩
      intro x hl hx
      rw [off_eqv (hq x hx.1 hx.2).2.2 h1, h1]; exact ho x hl hx.1
    · refine ⟨by omega, fun x hx => ⟨(hq x hx.1 hx.2).1, (hq x hx.1 hx.2).2.1⟩, ?_⟩
      intro x hl hx
      have hpar : off c.st x % 2 = 0 := by
        rw [off_odd _ hev]
        have : ¬ (c.st.obj x).version.ver % 2 = 1 := fun h' => by
          have := (hI.base.odd x).mp h'; rw [hg] at this; simp at this
        omega
      have hfl := off_flip (hq x hx.1 hx.2).2.2 h1 hev (hI.base.ver x) hpar
      have hz := ho x hl hx.1
      rw [if_neg (by omega)] at hfl
      have := hS'.stale hl (h'.used x hx) (by have := lim_le c'.st; omega)
      exact ⟨this, by omega⟩

theorem stage_start {N : Nat} (hN : N % 24 = 0) {s s' : St} {held held' : List SlotId} {G} (hI : Inv s held G)
    (hS : Small s) {X} (h : Garb ⟨s, held⟩ X) {roots : List (Option SlotId)} (hp : s.phase = .none)
    (hr : ∀ x, some x ∈ roots → ¬ X x) (hm : gcMarkRoot s roots = some s') (hst : Stage N ⟨s, held⟩ X) :
    Stage N ⟨s', held'⟩ X := by
  obtain ⟨hcalm, hp'⟩ := start_calm hI hp hm
  rcases hst with hA | hB | hC
  · rcases hA with hA | hA
    · left; left; show s'.version < N; rw [hcalm.version]; exact hA
    · right; left
      have hv : s.version = N := hA.1
      have hlim : lim s = 0 := by unfold lim; rw [if_pos hp, hv, hN]
      have hq := quiet_start hI hp h hr (fun p hp' _ => by have := (hI.rs p hp').2.1; omega) hm
      refine ⟨?_, ?_, fun x hx => ⟨(hq x hx).1, (hq x hx).2.1⟩, ?_⟩
      · show s'.version = N; rw [hcalm.version]; exact hv
      · show s'.phase ≠ .none; rw [hp']; simp
      · intro x hl hx
        show off s' x = 0 ∨ 33 ≤ off s' x
        rw [off_eqv (hq x hx).2.2 hcalm.version]
        by_cases e : off s x = 0
        · exact .inl e
        · exact .inr (hS.stale hl (h.used x hx) (by omega))
  · exact absurd hp hB.2.1
  · obtain ⟨hv, hc, ho⟩ := hC
    have hq := quiet_start hI hp h hr (fun p hp' hX => absurd hp' (hc p hX).1) hm
    right; right
    refine ⟨?_, fun x hx => ⟨(hq x hx).1, (hq x hx).2.1⟩, ?_⟩
    · show N + 2 ≤ s'.version; rw [hcalm.version]; exact hv
    · intro x hl hx
      show 33 ≤ off s' x ∧ off s' x + s'.version ≤ 64 + N
      rw [off_eqv (hq x hx).2.2 hcalm.version, hcalm.version]; exact ho x hl hx

theorem run_small {c : Config} (h : Run c) : Small c.st := by
  induction h with
  | init => exact init_small
  | step h hs ih =>
    obtain ⟨G, hG⟩ := run_inv h
    exact small_step hs hG ih

theorem later_spec {c0 c : Config} {X} (h0 : Run c0) (h : Later c0 X c) :
    Run c ∧ Garb c X ∧ c0.st.version ≤ c.st.version ∧ Stage (c0.st.version + 24 - c0.st.version % 24) c X := by
  have hN : (c0.st.version + 24 - c0.st.version % 24) % 24 = 0 := by omega
  induction h with
  | nil => exact ⟨h0, garb_init, Nat.le_refl _, .inl (.inl (by omega))⟩
  | step h hs hn ih =>
    obtain ⟨r, g, v, st⟩ := ih
    obtain ⟨G, hG⟩ := run_inv r
    have hS := run_small r
    have hS' := small_step hs hG hS
    have hg' := garb_step hs hG g
    refine ⟨.step r hs, hg', ?_, stage_step hN hs hG hS hS' g hg' hn st⟩
    rcases (quiet_step hs hG g hn).1 with h1 | h1
    · rw [h1.1]; exact v
    · rw [h1.1]; omega
  | @start X s s' held held' h roots hp hh hr hm ih =>
    obtain ⟨r, g, v, st⟩ := ih
    obtain ⟨G, hG⟩ := run_inv r
    have hs : Step ⟨s, held⟩ (fun _ => False) ⟨s', held'⟩ := .start s s' held held' roots hp hh hm
    have hg' := garb_step hs hG g
    have hXe : (fun x => X x ∧ ¬ False) = X := by funext x; simp
    rw [hXe] at hg'
    refine ⟨.step r hs, hg', ?_, stage_start hN hG (run_small r) g hp hr hm st⟩
    have : s'.version = s.version := (start_calm hG hp hm).1.version
    have v : c0.st.version ≤ s.version := v
    show c0.st.version ≤ s'.version
    omega

/-- C32 for small objects: an object that was unreachable at some point and 13 collection cycles later has not
been freed or reused is known to be dead: the allocator is free to take its slot. Partial: large objects are
left out, and they must be, see `C32_large_kept_wrong`. -/
theorem C32_small_dead_partial {c0 c : Config} {X} (h0 : Run c0) (h : Later c0 X c) (hn : 13 ≤ cycles c0 c)
    (x : SlotId) (hl : Layout.large x.1 = false) (hx : X x) : inuse c.st (c.st.obj x) = 0 := by
  obtain ⟨-, -, hv, st⟩ := later_spec h0 h
  unfold cycles at hn
  rcases st with hA | hB | hC
  · omega
  · have := hB.1; omega
  · exact stale_dead (hC.2.2 x hl hx).1

/-- C32 for small objects: after 28 collection cycles nothing small that was unreachable is still allocated:
each of those objects has been freed or its slot reused. Partial: large objects are left out, and they must
be, see `C32_large_kept_wrong`. -/
theorem C32_small_reclaimed_partial {c0 c : Config} {X} (h0 : Run c0) (h : Later c0 X c) (hn : 28 ≤ cycles c0 c)
    (x : SlotId) (hl : Layout.large x.1 = false) : ¬ X x := by
  intro hx
  obtain ⟨-, -, hv, st⟩ := later_spec h0 h
  unfold cycles at hn
  rcases st with hA | hB | hC
  · omega
  · have := hB.1; omega
  · have := hC.2.2 x hl hx; omega

end Cora.GC

namespace Cora.GC
variable [Layout]
set_option linter.unusedSectionVars false

/-- a sweep that has freed all the large objects it would free (src/gc.c:1014) -/
def sweptLarge (s : St) : Prop := ∀ x : SlotId, Layout.large x.1 = true → (s.obj x).used = true →
  (s.obj x).version.ver ≠ (s.version + 62) % 64

/-- As `Later`, but every sweep is also complete as far as large objects are concerned. -/
inductive LaterSwept (c0 : Config) : (SlotId → Prop) → Config → Prop where
  | nil : LaterSwept c0 (fun x => (c0.st.obj x).used = true ∧ ¬ Reach c0 x) c0
  | step {X c f c'} (h : LaterSwept c0 X c) (hs : Step c f c') (hn : ¬ (c.st.phase = .none ∧ c'.st.phase = .incr))
      (hl : c.st.phase = .sweep → c'.st.phase = .none → sweptLarge c.st) :
      LaterSwept c0 (fun x => X x ∧ ¬ f x) c'
  | start {X s s' held held'} (h : LaterSwept c0 X ⟨s, held⟩) (roots : List (Option SlotId)) (hp : s.phase = .none)
      (hh : ∀ x ∈ held', x ∈ held ∧ some x ∈ roots) (hr : ∀ x, some x ∈ roots → ¬ X x)
      (hm : gcMarkRoot s roots = some s') : LaterSwept c0 X ⟨s', held'⟩

theorem LaterSwept.later {c0 c : Config} {X} (h : LaterSwept c0 X c) : Later c0 X c := by
  induction h with
  | nil => exact .nil
  | step _ hs hn _ ih => exact .step ih hs hn
  | start _ roots hp hh hr hm ih => exact .start ih roots hp hh hr hm

end Cora.GC

namespace Cora.GC.Witness

section Large
/-- every block belongs to an arena for large objects -/
local instance allLarge : Layout := ⟨fun _ => true⟩

/-- one large object, allocated at version 2 -/
def big (v : Nat) : St :=
  { St.init with version := v, obj := upd St.init.obj (1, 0) ⟨true, ⟨0, 2⟩, []⟩ }

theorem big_flip (v : Nat) (p : Phase) : gcFlip { big v with phase := p } = big (v + 2) := by
  simp [gcFlip, big, St.init, Layout.large]

theorem big_first : Run ⟨big 2, []⟩ := by
  have h1 : Run ⟨big 2, [(1, 0)]⟩ := by
    have := Run.step Run.init (Step.allocLarge St.init [] (1, 0) [] [] rfl rfl (by simp) (by simp))
    have e : GC.allocLarge St.init (1, 0) [] [] = big 2 := by
      simp [GC.allocLarge, big, St.init, St.setObj, newSlot]
    rw [e] at this
    exact this
  exact Run.step h1 (Step.forget _ _ [] (by simp))

/-- a cycle in which nothing is reachable -/
theorem big_cycle {X : SlotId → Prop} {v : Nat} (h : LaterSwept ⟨big 2, []⟩ X ⟨big v, []⟩) (hX : X (1, 0)) (hv : v < 900) :
    ∃ X', LaterSwept ⟨big 2, []⟩ X' ⟨big (v + 2), []⟩ ∧ X' (1, 0) := by
  have hs : LaterSwept ⟨big 2, []⟩ X ⟨{ big v with phase := .incr }, []⟩ :=
    .start h [] rfl (by simp) (by simp) (by simp [gcMarkRoot, markAll, gcRSetLoop, big, St.init])
  by_cases h30 : v % 30 = 0
  · have h1 := LaterSwept.step hs (Step.run _ { big v with phase := .sweep } [] rfl (by
      rw [run_nil rfl, if_pos (show (big v).version % 30 = 0 from h30)])) (by simp) (by simp)
    have h2 := LaterSwept.step h1 (Step.flip _ [] rfl (by
      intro x hx; simp [Layout.large] at hx)) (by simp) (by
      intro _ _ x _ hu
      by_cases e : x = (1, 0)
      · subst e
        simp only [big, upd, if_true]
        omega
      · simp [big, upd, e, St.init, Slot.zero] at hu)
    rw [big_flip] at h2
    refine ⟨_, h2, ⟨hX, ?_⟩, ?_⟩
    · simp [big]
    · simp [big, upd]
  · have h1 := LaterSwept.step hs (Step.run _ (gcFlip { big v with phase := .incr }) [] rfl (by
      rw [run_nil rfl, if_neg (show ¬ (big v).version % 30 = 0 from h30)])) (by simp [gcFlip]) (by simp)
    rw [big_flip] at h1
    refine ⟨_, h1, hX, ?_⟩
    simp [big, upd]

theorem big_later (n : Nat) (hn : n ≤ 449) : ∃ X, LaterSwept ⟨big 2, []⟩ X ⟨big (2 + 2 * n), []⟩ ∧ X (1, 0) := by
  induction n with
  | zero =>
    refine ⟨_, .nil, by simp [big, upd], ?_⟩
    intro hr
    have : ∀ x, Reach ⟨big 2, []⟩ x → False := by
      intro x hx
      induction hx with
      | held h => simp at h
      | field _ _ ih => exact ih
    exact this _ hr
  | succ n ih =>
    obtain ⟨X, h1, h2⟩ := ih (by omega)
    obtain ⟨X', h3, h4⟩ := big_cycle h1 h2 (by omega)
    exact ⟨X', by rw [show 2 + 2 * (n + 1) = 2 + 2 * n + 2 by omega]; exact h3, h4⟩

end Large

/-- C32 fails for large objects, because the sweep frees only those whose version is exactly the previous one
(src/gc.c:1014) and runs only at multiples of 30: there is an execution, in which every sweep is complete, and
an object unreachable from the beginning that is still allocated 449 cycles later. -/
theorem C32_large_kept_wrong : ∃ (_ : Layout) (c0 c : Config) (X : SlotId → Prop) (x : SlotId), Run c0 ∧
    LaterSwept c0 X c ∧ cycles c0 c = 449 ∧ X x := by
  letI := allLarge
  obtain ⟨X, h1, h2⟩ := big_later 449 (by omega)
  exact ⟨allLarge, _, _, X, (1, 0), big_first, h1, rfl, h2⟩

/-- C32, what is worse: an object found to be dead counts as in use again later, because its version is compared
modulo 64; the allocator then no longer takes its memory. -/
theorem C32_large_revived_wrong : ∃ (_ : Layout) (c0 c1 c2 : Config) (X1 X2 : SlotId → Prop) (x : SlotId), Run c0 ∧
    LaterSwept c0 X1 c1 ∧ LaterSwept c0 X2 c2 ∧ cycles c0 c1 < cycles c0 c2 ∧ X1 x ∧ X2 x ∧
    inuse c1.st (c1.st.obj x) = 0 ∧ inuse c2.st (c2.st.obj x) ≠ 0 := by
  letI := allLarge
  obtain ⟨X1, h1, h2⟩ := big_later 1 (by omega)
  obtain ⟨X2, h3, h4⟩ := big_later 20 (by omega)
  exact ⟨allLarge, _, _, _, X1, X2, (1, 0), big_first, h1, h3, by decide, h2, h4, by decide, by decide⟩

section Small
local instance : Layout := noLarge

theorem s2_first : Run ⟨s2, []⟩ := by
  have r1 : Run ⟨s1, []⟩ := Run.step .init (Step.getBlock _ _ _ 0 4 rfl rfl (by decide) (some_getD _ St.init (by decide)))
  have r2 : Run ⟨s2, [(0, 0)]⟩ := Run.step r1 (Step.allocTake s1 [] 0 [] s2 (0, 0) (by decide) (by decide) (by simp) rfl)
  exact Run.step r2 (Step.forget _ _ [] (by simp))

/-- between cycles, with at most one object -/
structure Idle (s : St) : Prop where
  phase : s.phase = .none
  gray : s.gray = []
  rset : s.rset = []
  one : ∀ x, x ≠ (0, 0) → (s.obj x).used = false

theorem idle_flip {s : St} (h : Idle s) (p : Phase) : Idle (gcFlip { s with phase := p }) := by
  refine ⟨rfl, h.gray, h.rset, ?_⟩
  intro x hx
  simp only [gcFlip]
  split
  · rfl
  · exact h.one x hx

theorem idle_cycle {c0 : Config} {X} {s : St} (h : Later c0 X ⟨s, []⟩) (hi : Idle s) :
    ∃ X' s', Later c0 X' ⟨s', []⟩ ∧ Idle s' ∧ s'.version = s.version + 2 := by
  have hs : Later c0 X ⟨{ s with phase := .incr }, []⟩ :=
    .start h [] hi.phase (by simp) (by simp) (by
      have h1 := hi.gray; have h2 := hi.rset
      cases s; simp_all [gcMarkRoot, markAll, gcRSetLoop])
  by_cases h30 : s.version % 30 = 0
  · have h1 := Later.step hs (Step.run _ { s with phase := .sweep } [] rfl (by
      rw [run_nil (s := { s with phase := .incr }) hi.gray, if_pos (show s.version % 30 = 0 from h30)])) (by simp)
    by_cases hz : inuse s (s.obj (0, 0)) = 0
    · have h2 := Later.step h1 (Step.sweepSmall _ [] (0, 0) rfl rfl hz) (by simp)
      have hu : ∀ x, ((sweepSlot { s with phase := .sweep } (0, 0)).obj x).used = false := by
        intro x
        simp only [sweepSlot, St.setObj, upd]
        split
        · rfl
        · rename_i e; exact hi.one x e
      have h3 := Later.step h2 (Step.flip _ [] rfl (by
        intro x _ _ _ _ hx; rw [hu] at hx; simp at hx)) (by simp [sweepSlot, St.setObj])
      refine ⟨_, _, h3, ⟨rfl, hi.gray, hi.rset, ?_⟩, rfl⟩
      intro x hx
      show ((gcFlip _).obj x).used = false
      simp only [gcFlip]
      split
      · rfl
      · exact hu x
    · have h3 := Later.step h1 (Step.flip _ [] rfl (by
        intro x _ _ _ _ hx
        by_cases e : x = (0, 0)
        · rw [e]; exact hz
        · have := hi.one x e
          have hx : (s.obj x).used = true := hx
          rw [this] at hx; simp at hx)) (by simp)
      exact ⟨_, _, h3, idle_flip hi .sweep, rfl⟩
  · have h1 := Later.step hs (Step.run _ (gcFlip { s with phase := .incr }) [] rfl (by
      rw [run_nil (s := { s with phase := .incr }) hi.gray, if_neg (show ¬ s.version % 30 = 0 from h30)])) (by simp [gcFlip])
    exact ⟨_, _, h1, idle_flip hi .incr, rfl⟩

/-- Non-vacuity of the theorems about small objects: there is an execution with an object that is in use and
becomes unreachable, followed by as many collection cycles as one likes. -/
example (n : Nat) : ∃ c0 x, Run c0 ∧ (c0.st.obj x).used = true ∧ ¬ Reach c0 x ∧ inuse c0.st (c0.st.obj x) ≠ 0 ∧
    ∃ X c, Later c0 X c ∧ cycles c0 c = n := by
  refine ⟨⟨s2, []⟩, (0, 0), s2_first, by decide, ?_, by decide, ?_⟩
  · intro hr
    have : ∀ x, Reach ⟨s2, []⟩ x → False := by
      intro x hx
      induction hx with
      | held h => simp at h
      | field _ _ ih => exact ih
    exact this _ hr
  · suffices ∃ X s, Later ⟨s2, []⟩ X ⟨s, []⟩ ∧ Idle s ∧ s.version = 2 + 2 * n by
      obtain ⟨X, s, h1, -, h2⟩ := this
      refine ⟨X, _, h1, ?_⟩
      have h3 : s2.version = 2 := rfl
      unfold cycles
      show (s.version - s2.version) / 2 = n
      omega
    induction n with
    | zero =>
      refine ⟨_, _, .nil, ⟨rfl, rfl, rfl, ?_⟩, rfl⟩
      intro x hx
      simp [s2, s1, allocStep, getBlock, St.init, Slot.zero, inuse, St.setObj, upd, hx]
    | succ n ih =>
      obtain ⟨X, s, h1, h2, h3⟩ := ih
      obtain ⟨X', s', h4, h5, h6⟩ := idle_cycle h1 h2
      exact ⟨X', s', h4, h5, by omega⟩

end Small

end Cora.GC.Witness
