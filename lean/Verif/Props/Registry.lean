import Verif.Model.Registry
import Verif.Props.Parallel
/-
C111: mailboxes published and resolved by several procs at the same time.
-/
open Spec.Registry Spec.Mailbox
namespace Cora.Registry
open Cora.Parallel

variable {μ : Type}

/-- at every moment of the run from `s`, the end included, `P` holds -/
def Always (P : Proc μ → Prop) : Proc μ → List (Act μ) → Prop
  | s, [] => P s
  | s, a :: r => P s ∧ ∀ s', s.act a = some s' → Always P s' r

/-- no two procs are inside of `mailbox-publish` -/
def OnePublisher (s : Proc μ) : Prop := ∀ t u, (s.threads t).publishes → (s.threads u).publishes → t = u

/-- while a proc is inside of `mailbox-publish`, no other is inside of `mailbox-publish` or `mailbox-resolve` -/
def Apart (s : Proc μ) : Prop := ∀ t u, (s.threads t).publishes → u ≠ t → s.threads u = .outside

theorem Apart.one {s : Proc μ} (h : Apart s) : OnePublisher s := by
  intro t u ht hu
  by_cases e : u = t
  · exact e.symm
  · have := h t u ht e
    rw [this] at hu
    cases hu

/-! ### the invariant -/

def Full (x : Slot μ) : Prop := ∃ m n, x = ⟨some m, some n⟩
def Other (name : List UInt8) (x : Slot μ) : Prop := ∃ m n, n ≠ name ∧ x = ⟨some m, some n⟩

/-- the complete slots, as in `Model/Parallel` -/
def view (slots : Nat → Slot μ) : Slots μ := fun i =>
  match slots i with
  | ⟨some m, some n⟩ => some (n, m)
  | _ => none

def AtOk (slots : Nat → Slot μ) : At μ → Prop
  | .outside => True
  | .seeking n _ idx => ∃ k ≤ 255, idx = path n k ∧ ∀ j < k, Full (slots (path n j))
  | .storing n _ idx => ∃ k < 255, idx = path n k ∧ (∀ j < k, Full (slots (path n j))) ∧ slots idx = ⟨none, none⟩
  | .naming n m idx => ∃ k < 255, idx = path n k ∧ (∀ j < k, Full (slots (path n j))) ∧ slots idx = ⟨some m, none⟩
  | .looking n idx k => k ≤ 256 ∧ idx = path n k ∧ ∀ j < k, Other n (slots (path n j))
  | .comparing n idx k => k ≤ 256 ∧ idx = path n k ∧ ∀ j < k, Other n (slots (path n j))
  | .again n idx k => k ≤ 256 ∧ idx = path n k ∧ ∀ j < k, Other n (slots (path n j))
  | .checking n idx k => k < 256 ∧ idx = path n k ∧ (∀ j < k, Other n (slots (path n j))) ∧ (slots idx).m.isSome
  | .giving n idx k => k < 256 ∧ idx = path n k ∧ (∀ j < k, Other n (slots (path n j))) ∧ ∃ m, slots idx = ⟨some m, some n⟩

/-- each answer is that of a `resolve` without interruption after the publications completed before it -/
def Answers (log : List (Event μ)) : Prop :=
  ∀ after t name ans before, log = after ++ .resolved t name ans :: before → ans = firstPublished name (completed before)

structure Inv (s : Proc μ) : Prop where
  seq : publishAll (completed s.log) (fun _ => none) = some (view s.slots)
  half : ∀ i, (s.slots i).m.isSome → (s.slots i).name = none → ∃ t n m, s.threads t = .naming n m i
  named : ∀ i, (s.slots i).m = none → (s.slots i).name = none
  ok : ∀ t, AtOk s.slots (s.threads t)
  answers : Answers s.log

theorem publishAll_append (a b : List (List UInt8 × μ)) (s : Slots μ) :
    publishAll (a ++ b) s = (publishAll a s).bind (publishAll b) := by
  induction a generalizing s with
  | nil => rfl
  | cons p a ih =>
    simp only [List.cons_append, publishAll, Option.bind_eq_bind]
    cases publish p.1 p.2 s with
    | none => rfl
    | some s1 => exact ih s1

theorem Answers.cons {log : List (Event μ)} (h : Answers log) (e : Event μ)
    (he : ∀ t name ans, e = .resolved t name ans → ans = firstPublished name (completed log)) : Answers (e :: log) := by
  intro after t name ans before heq
  cases after with
  | nil => cases heq; exact he t name ans rfl
  | cons x after => cases heq; exact h after t name ans before rfl

theorem start_inv : Inv (Proc.start : Proc μ) where
  seq := rfl
  half := fun i h => by cases h
  named := fun _ _ => rfl
  ok := fun _ => trivial
  answers := fun after t name ans before h => by cases after <;> cases h

theorem good_of {s : Proc μ} (h : Inv s) : Good (completed s.log) (view s.slots) := by
  have h0 : Good ([] : List (List UInt8 × μ)) (fun _ => none) := fun n => by simp [firstPublished]
  simpa using publishAll_good h0 h.seq

theorem view_other {slots : Nat → Slot μ} {n : List UInt8} {i : Nat} (h : Other n (slots i)) {e} (he : view slots i = some e) :
    e.1 ≠ n := by
  obtain ⟨m, n', hne, hx⟩ := h
  simp only [view, hx, Option.some.injEq] at he
  subst he; exact hne

/-- the answer `()` -/
theorem nil_answer {s : Proc μ} (h : Inv s) {n : List UInt8} {k : Nat} (hk : k ≤ 256)
    (ho : ∀ j < k, Other n (s.slots (path n j))) (he : (s.slots (path n k)).m = none ∨ k = 256) :
    none = firstPublished n (completed s.log) := by
  have hg := good_of h n
  cases hf : firstPublished n (completed s.log) with
  | none => rfl
  | some m =>
    exfalso
    rw [hf] at hg
    obtain ⟨i, hi, h1, h2⟩ := hg
    rcases Nat.lt_trichotomy i k with hlt | heq | hgt
    · exact view_other (ho i hlt) h1 rfl
    · subst heq
      rcases he with he | he
      · simp only [view] at h1
        split at h1
        · rename_i hs; rw [hs] at he; cases he
        · cases h1
      · omega
    · obtain ⟨e, h3, -⟩ := h2 k hgt
      rcases he with he | he
      · simp only [view] at h3
        split at h3
        · rename_i hs; rw [hs] at he; cases he
        · cases h3
      · omega

/-- the answer is a mailbox -/
theorem some_answer {s : Proc μ} (h : Inv s) {n : List UInt8} {k : Nat} {m : μ}
    (ho : ∀ j < k, Other n (s.slots (path n j))) (he : s.slots (path n k) = ⟨some m, some n⟩) :
    some m = firstPublished n (completed s.log) := by
  have hg := good_of h n
  have hv : view s.slots (path n k) = some (n, m) := by simp only [view, he]
  cases hf : firstPublished n (completed s.log) with
  | none => rw [hf] at hg; exact absurd rfl (hg _ _ hv)
  | some m' =>
    rw [hf] at hg
    obtain ⟨i, hi, h1, h2⟩ := hg
    rcases Nat.lt_trichotomy i k with hlt | heq | hgt
    · exact absurd rfl (view_other (ho i hlt) h1)
    · subst heq; rw [hv] at h1; cases h1; rfl
    · obtain ⟨e, h3, h4⟩ := h2 k hgt
      rw [hv] at h3; cases h3; exact absurd rfl h4

/-! ### steps -/

/-- complete slots stay as they are, and a mailbox in a slot stays there -/
def Grows (a b : Nat → Slot μ) : Prop := ∀ i, (Full (a i) → b i = a i) ∧ ((a i).m.isSome → (b i).m.isSome)

theorem Grows.refl (a : Nat → Slot μ) : Grows a a := fun _ => ⟨fun _ => rfl, id⟩

theorem Other.full {n : List UInt8} {x : Slot μ} (h : Other n x) : Full x := by
  obtain ⟨m, n', -, hx⟩ := h
  exact ⟨m, n', hx⟩

/-- what a proc inside of `mailbox-resolve` knows stays true -/
theorem AtOk.grows {a b : Nat → Slot μ} (h : Grows a b) {l : At μ} (hl : ¬ l.publishes) (ok : AtOk a l) : AtOk b l := by
  have ho : ∀ {n : List UInt8} {k : Nat}, (∀ j < k, Other n (a (path n j))) → ∀ j < k, Other n (b (path n j)) := by
    intro n k hk j hj
    rw [(h _).1 (hk j hj).full]; exact hk j hj
  cases l with
  | outside => trivial
  | seeking n m i => exact absurd rfl hl
  | storing n m i => exact absurd rfl hl
  | naming n m i => exact absurd rfl hl
  | looking n i k => exact ⟨ok.1, ok.2.1, ho ok.2.2⟩
  | comparing n i k => exact ⟨ok.1, ok.2.1, ho ok.2.2⟩
  | again n i k => exact ⟨ok.1, ok.2.1, ho ok.2.2⟩
  | checking n i k => exact ⟨ok.1, ok.2.1, ho ok.2.2.1, (h _).2 ok.2.2.2⟩
  | giving n i k =>
    obtain ⟨m, hm⟩ := ok.2.2.2
    exact ⟨ok.1, ok.2.1, ho ok.2.2.1, m, by rw [(h _).1 ⟨m, n, hm⟩, hm]⟩

/-- a step that changes no slot and completes no publication -/
theorem Inv.quiet {s s' : Proc μ} (h : Inv s) (t : Nat) (hs : s'.slots = s.slots)
    (hc : completed s'.log = completed s.log) (hu : ∀ u, u ≠ t → s'.threads u = s.threads u)
    (hnt : ∀ n m i, s.threads t ≠ .naming n m i) (hok : AtOk s.slots (s'.threads t)) (ha : Answers s'.log) : Inv s' where
  seq := by rw [hc, hs]; exact h.seq
  half := fun i h1 h2 => by
    rw [hs] at h1 h2
    obtain ⟨u, n, m, hu'⟩ := h.half i h1 h2
    refine ⟨u, n, m, ?_⟩
    rw [hu u (by rintro rfl; exact hnt _ _ _ hu'), hu']
  named := by rw [hs]; exact h.named
  ok := fun u => by
    rw [hs]
    by_cases e : u = t
    · rw [e]; exact hok
    · rw [hu u e]; exact h.ok u
  answers := ha

theorem crash_inv {s : Proc μ} (h : Inv s) (t : Nat) (c : Cause) : Inv (s.crash t c) where
  seq := h.seq
  half := h.half
  named := h.named
  ok := h.ok
  answers := h.answers.cons _ fun _ _ _ e => by cases e

theorem move_inv {s : Proc μ} (h : Inv s) {t : Nat} {l : At μ} (hnt : ∀ n m i, s.threads t ≠ .naming n m i) (hok : AtOk s.slots l) :
    Inv (s.move t l) :=
  h.quiet t rfl rfl (fun _ hu => if_neg hu) hnt (by simpa only [Proc.move, if_true] using hok) h.answers

theorem note_inv {s : Proc μ} (h : Inv s) {t : Nat} {l : At μ} (e : Event μ) (hnt : ∀ n m i, s.threads t ≠ .naming n m i)
    (hok : AtOk s.slots l) (he : completed (e :: s.log) = completed s.log)
    (ha : ∀ t name ans, e = .resolved t name ans → ans = firstPublished name (completed s.log)) : Inv ((s.move t l).note e) :=
  h.quiet t rfl he (fun _ hu => if_neg hu) hnt (by simpa only [Proc.note, Proc.move, if_true] using hok) (h.answers.cons e ha)

theorem isSome_full {s : Proc μ} (h : Inv s) {i : Nat} (hm : (s.slots i).m.isSome) (hn : ∀ t n m, s.threads t ≠ .naming n m i) :
    Full (s.slots i) := by
  cases hx : s.slots i with
  | mk m n =>
    cases n with
    | none =>
      obtain ⟨t, n, m', ht⟩ := h.half i hm (by rw [hx])
      exact absurd ht (hn t n m')
    | some n =>
      rw [hx] at hm
      obtain ⟨m', rfl⟩ := Option.isSome_iff_exists.mp hm
      exact ⟨m', n, rfl⟩

theorem step_inv {s s' : Proc μ} {a : Act μ} (h : Inv s) (h1 : OnePublisher s) (hs : s.act a = some s') : Inv s' := by
  unfold Proc.act at hs
  split at hs
  · cases a with
    | publish t name m =>
      simp only at hs
      split at hs
      · rename_i ht
        cases hs
        exact note_inv h _ (by rw [ht]; nofun) ⟨0, by decide, (path_zero name).symm, fun j hj => absurd hj (Nat.not_lt_zero j)⟩ rfl
          (by nofun)
      · cases hs
    | resolve t name =>
      simp only at hs
      split at hs
      · rename_i ht
        cases hs
        exact note_inv h _ (by rw [ht]; nofun) ⟨by decide, (path_zero name).symm, fun j hj => absurd hj (Nat.not_lt_zero j)⟩ rfl
          (by nofun)
      · cases hs
    | go t =>
      simp only at hs
      have hok := h.ok t
      unfold Proc.go at hs
      cases ht : s.threads t with
      | outside => rw [ht] at hs; cases hs
      | seeking n m idx =>
        rw [ht] at hs hok
        simp only at hs
        obtain ⟨k, hk, rfl, hfull⟩ := hok
        have hne : ∀ u n' m' i, s.threads u ≠ .naming n' m' i := by
          intro u n' m' i hu
          have := h1 t u (by rw [ht]; rfl) (by rw [hu]; rfl)
          subst this; rw [ht] at hu; cases hu
        have hst := path_start n k (by omega)
        split at hs
        · rename_i hc
          have hk' : k ≠ 255 := fun e => hc.2 (hst.mpr e)
          cases hs
          refine move_inv h (hne t) ⟨k + 1, by omega, path_succ n k, fun j hj => ?_⟩
          rcases Nat.lt_succ_iff_lt_or_eq.mp hj with hj | rfl
          · exact hfull j hj
          · exact isSome_full h hc.1 fun u n' m' => hne u n' m' _
        · split at hs
          · cases hs; exact crash_inv h t _
          · rename_i hc hk'
            have hk2 : k ≠ 255 := fun e => hk' (hst.mpr e)
            cases hs
            refine move_inv h (hne t) ⟨k, by omega, rfl, hfull, ?_⟩
            have hm : (s.slots (path n k)).m = none := by
              cases hx : (s.slots (path n k)).m with
              | none => rfl
              | some x => exact absurd ⟨by rw [hx]; rfl, hk'⟩ hc
            have hn := h.named _ hm
            cases hx : s.slots (path n k)
            rw [hx] at hm hn
            simp only at hm hn
            rw [hm, hn]
      | storing n m idx =>
        rw [ht] at hs hok
        simp only at hs
        obtain ⟨k, hk, rfl, hfull, hempty⟩ := hok
        cases hs
        have hg : Grows s.slots (s.write (path n k) { s.slots (path n k) with m := some m }).slots := by
          intro i
          simp only [Proc.write]
          by_cases e : i = path n k
          · subst e
            rw [if_pos rfl, hempty]
            exact ⟨fun hx => (by obtain ⟨_, _, hx⟩ := hx; cases hx), fun _ => rfl⟩
          · rw [if_neg e]; exact ⟨fun _ => rfl, id⟩
        have hv : view (s.write (path n k) { s.slots (path n k) with m := some m }).slots = view s.slots := by
          funext i
          simp only [view, Proc.write]
          by_cases e : i = path n k
          · subst e; rw [if_pos rfl, hempty]
          · rw [if_neg e]
        constructor
        · exact h.seq.trans (congrArg some hv.symm)
        · intro i hm hn
          by_cases e : i = path n k
          · subst e; exact ⟨t, n, m, if_pos rfl⟩
          · simp only [Proc.move, Proc.write, if_neg e] at hm hn
            obtain ⟨u, n', m', hu⟩ := h.half i hm hn
            refine ⟨u, n', m', ?_⟩
            simp only [Proc.move, Proc.write]
            rw [if_neg (by rintro rfl; rw [ht] at hu; cases hu), hu]
        · intro i
          simp only [Proc.move, Proc.write]
          by_cases e : i = path n k
          · rw [if_pos e]; nofun
          · rw [if_neg e]; exact h.named i
        · intro u
          by_cases e : u = t
          · subst e
            simp only [Proc.move, if_true]
            refine ⟨k, hk, rfl, fun j hj => ?_, ?_⟩
            · have := (hg (path n j)).1 (hfull j hj)
              rw [this]; exact hfull j hj
            · simp only [Proc.write, if_true, hempty]
          · simp only [Proc.move, if_neg e]
            exact (h.ok u).grows hg fun hp => e (h1 u t hp (by rw [ht]; rfl))
        · exact h.answers
      | naming n m idx =>
        rw [ht] at hs hok
        simp only at hs
        obtain ⟨k, hk, rfl, hfull, hhalf⟩ := hok
        cases hs
        have hg : Grows s.slots (s.write (path n k) { s.slots (path n k) with name := some n }).slots := by
          intro i
          simp only [Proc.write]
          by_cases e : i = path n k
          · subst e
            rw [if_pos rfl, hhalf]
            exact ⟨fun hx => (by obtain ⟨_, _, hx⟩ := hx; cases hx), fun _ => rfl⟩
          · rw [if_neg e]; exact ⟨fun _ => rfl, id⟩
        have hv : view (s.write (path n k) { s.slots (path n k) with name := some n }).slots =
            fun i => if i = path n k then some (n, m) else view s.slots i := by
          funext i
          by_cases e : i = path n k
          · subst e; simp only [view, Proc.write, if_true, hhalf]
          · simp only [view, Proc.write, if_neg e]
        constructor
        · show publishAll (completed s.log ++ [(n, m)]) _ = some (view _)
          refine Eq.trans ?_ (congrArg some hv.symm)
          rw [publishAll_append, h.seq]
          have hvk : view s.slots (path n k) = none := by simp only [view, hhalf]
          have hvf : ∀ j < k, (view s.slots (path n j)).isSome := by
            intro j hj
            obtain ⟨m', n', hx⟩ := hfull j hj
            simp only [view, hx]; rfl
          have : publish n m (view s.slots) = some fun i => if i = path n k then some (n, m) else view s.slots i := by
            rcases publish_spec (view s.slots) n m with ⟨-, hall⟩ | ⟨k', hk', hfree, hf, e⟩
            · have := hall k hk; rw [hvk] at this; cases this
            · rcases Nat.lt_trichotomy k k' with hlt | heq | hgt
              · have := hf k hlt; rw [hvk] at this; cases this
              · rw [e, heq]
              · have := hvf k' hgt; rw [hfree] at this; cases this
          simp only [Option.bind_some, publishAll, this, Option.bind_eq_bind]
        · intro i hm hn
          by_cases e : i = path n k
          · subst e; simp [Proc.note, Proc.move, Proc.write] at hn
          · simp only [Proc.note, Proc.move, Proc.write, if_neg e] at hm hn
            obtain ⟨u, n', m', hu⟩ := h.half i hm hn
            refine ⟨u, n', m', ?_⟩
            simp only [Proc.note, Proc.move, Proc.write]
            rw [if_neg (by rintro rfl; rw [ht] at hu; cases hu; exact e rfl), hu]
        · intro i
          simp only [Proc.note, Proc.move, Proc.write]
          by_cases e : i = path n k
          · subst e; rw [if_pos rfl, hhalf]; nofun
          · rw [if_neg e]; exact h.named i
        · intro u
          by_cases e : u = t
          · subst e
            simp only [Proc.note, Proc.move, if_true]
            trivial
          · simp only [Proc.note, Proc.move, if_neg e]
            exact (h.ok u).grows hg fun hp => e (h1 u t hp (by rw [ht]; rfl))
        · exact h.answers.cons _ (by nofun)
      | looking n idx k =>
        rw [ht] at hs hok
        have hne : ∀ n' m' i, s.threads t ≠ .naming n' m' i := by rw [ht]; nofun
        simp only at hs
        split at hs <;> cases hs
        · exact move_inv h hne hok
        · exact move_inv h hne hok
      | comparing n idx k =>
        rw [ht] at hs hok
        have hne : ∀ n' m' i, s.threads t ≠ .naming n' m' i := by rw [ht]; nofun
        simp only at hs
        obtain ⟨hk, rfl, ho⟩ := hok
        split at hs
        · cases hs; exact crash_inv h t _
        · rename_i n' hn'
          split at hs
          · rename_i hc
            cases hs
            refine move_inv h hne ⟨by omega, path_succ n k, fun j hj => ?_⟩
            rcases Nat.lt_succ_iff_lt_or_eq.mp hj with hj | rfl
            · exact ho j hj
            · cases hx : s.slots (path n j) with
              | mk m' x =>
                rw [hx] at hn'
                simp only at hn'
                subst hn'
                cases m' with
                | none => have := h.named (path n j) (by rw [hx]); rw [hx] at this; cases this
                | some m' => exact ⟨m', n', hc.1, rfl⟩
          · cases hs
            exact move_inv h hne ⟨hk, rfl, ho⟩
      | again n idx k =>
        rw [ht] at hs hok
        have hne : ∀ n' m' i, s.threads t ≠ .naming n' m' i := by rw [ht]; nofun
        simp only at hs
        obtain ⟨hk, rfl, ho⟩ := hok
        split at hs
        · rename_i hc
          cases hs
          refine note_inv h _ hne trivial rfl fun t' n' ans e => ?_
          cases e
          exact nil_answer h hk ho (hc.imp Option.isNone_iff_eq_none.mp id)
        · rename_i hc
          cases hs
          refine move_inv h hne ⟨by omega, rfl, ho, ?_⟩
          cases hx : (s.slots (path n k)).m with
          | none => exact absurd (.inl (by rw [hx]; rfl)) hc
          | some x => rfl
      | checking n idx k =>
        rw [ht] at hs hok
        have hne : ∀ n' m' i, s.threads t ≠ .naming n' m' i := by rw [ht]; nofun
        simp only at hs
        obtain ⟨hk, rfl, ho, hm⟩ := hok
        split at hs
        · cases hs; exact crash_inv h t _
        · rename_i n' hn'
          split at hs
          · rename_i e
            cases hs
            refine move_inv h hne ⟨hk, rfl, ho, ?_⟩
            obtain ⟨m', hm'⟩ := Option.isSome_iff_exists.mp hm
            refine ⟨m', ?_⟩
            cases hx : s.slots (path n k)
            rw [hx] at hm' hn'
            simp only at hm' hn'
            rw [hm', hn', e]
          · cases hs; exact crash_inv h t _
      | giving n idx k =>
        rw [ht] at hs hok
        have hne : ∀ n' m' i, s.threads t ≠ .naming n' m' i := by rw [ht]; nofun
        simp only at hs
        obtain ⟨hk, rfl, ho, m, hx⟩ := hok
        cases hs
        refine note_inv h _ hne trivial rfl fun t' n' ans e => ?_
        cases e
        rw [hx]
        exact some_answer h ho hx
  · cases hs

theorem run_inv {acts : List (Act μ)} {s s' : Proc μ} (h : Inv s) (h1 : Always OnePublisher s acts) (hs : s.run acts = some s') : Inv s' := by
  induction acts generalizing s with
  | nil => cases hs; exact h
  | cons a r ih =>
    simp only [Proc.run, Option.bind_eq_some_iff] at hs
    obtain ⟨s1, h2, h3⟩ := hs
    exact ih (step_inv h h1.1 h2) (h1.2 s1 h2) h3

/-- As long as no two procs are inside of `mailbox-publish` at the same time, every `mailbox-resolve` that returns gives what the publications
completed by then make of the name: the mailbox first published under it, or `()` when there is none; whatever the interleaving with the
publications, with other resolves and with each other. -/
theorem C111_answers_partial (acts : List (Act μ)) (s : Proc μ) (hs : Proc.start.run acts = some s)
    (h1 : Always OnePublisher Proc.start acts) (after before : List (Event μ)) (t : Nat) (name : List UInt8) (answer : Option μ)
    (hlog : s.log = after ++ .resolved t name answer :: before) : answer = firstPublished name (completed before) :=
  (run_inv start_inv h1 hs).answers after t name answer before hlog

/-! ### crashes -/

/-- what a proc inside of `mailbox-resolve` knows when no publication is going on -/
def Sure (slots : Nat → Slot μ) : At μ → Prop
  | .comparing _ idx _ => (slots idx).m.isSome
  | .again n idx k => (slots idx).m = none ∨ k = 256 ∨ (slots idx).name = some n
  | .checking n idx _ => (slots idx).name = some n
  | _ => True

/-- the only crash is that of a registry with no place left -/
def Crashes (log : List (Event μ)) : Prop :=
  ∀ after t c before, log = after ++ .crashed t c :: before → c = .full ∧ 255 ≤ (completed before).length

theorem Crashes.cons {log : List (Event μ)} (h : Crashes log) (e : Event μ)
    (he : ∀ t c, e = .crashed t c → c = .full ∧ 255 ≤ (completed log).length) : Crashes (e :: log) := by
  intro after t c before heq
  cases after with
  | nil => cases heq; exact he t c rfl
  | cons x after => cases heq; exact h after t c before rfl

/-- 255 slots are taken: 255 publications are complete -/
theorem full_count {s : Proc μ} (h : Inv s) {n : List UInt8} (m : μ) (hfull : ∀ j < 255, Full (s.slots (path n j))) :
    255 ≤ (completed s.log).length := by
  refine Nat.le_of_not_lt fun hlt => ?_
  have hroom := C76_room (completed s.log ++ [(n, m)]) (by simp only [List.length_append, List.length_singleton]; omega)
  rw [publishAll_append, h.seq] at hroom
  rcases publish_spec (view s.slots) n m with ⟨e, -⟩ | ⟨k, hk, hfree, -⟩
  · simp only [Option.bind_some, publishAll, e, Option.bind_eq_bind, Option.bind_none] at hroom
    cases hroom
  · obtain ⟨m', n', hx⟩ := hfull k hk
    simp only [view, hx] at hfree
    cases hfree

structure Safe (s : Proc μ) : Prop where
  inv : Inv s
  sure : ∀ t, Sure s.slots (s.threads t)
  crashes : Crashes s.log

theorem Safe.quiet {s s' : Proc μ} (h : Safe s) (hi : Inv s') (t : Nat) (hs : s'.slots = s.slots)
    (hu : ∀ u, u ≠ t → s'.threads u = s.threads u) (hok : Sure s.slots (s'.threads t)) (ha : Crashes s'.log) : Safe s' where
  inv := hi
  sure := fun u => by
    rw [hs]
    by_cases e : u = t
    · rw [e]; exact hok
    · rw [hu u e]; exact h.sure u
  crashes := ha

/-- while a proc resolves, every mailbox in a slot has its name -/
theorem resolver_full {s : Proc μ} (h : Inv s) (ha : Apart s) {t : Nat} (ht : (s.threads t).resolves) {i : Nat}
    (hm : (s.slots i).m.isSome) : Full (s.slots i) :=
  isSome_full h hm fun u n m hu => by
    by_cases e : t = u
    · subst e; rw [hu] at ht; cases ht
    · have := ha u t (by rw [hu]; rfl) e
      rw [this] at ht; cases ht

theorem step_safe {s s' : Proc μ} {a : Act μ} (h : Safe s) (ha : Apart s) (hs : s.act a = some s') : Safe s' := by
  have hi : Inv s' := step_inv h.inv ha.one hs
  unfold Proc.act at hs
  split at hs
  · cases a with
    | publish t name m =>
      simp only at hs
      split at hs
      · cases hs
        exact h.quiet hi t rfl (fun _ hu => if_neg hu) (by simp only [Proc.note, Proc.move, if_true]; trivial) (h.crashes.cons _ (by nofun))
      · cases hs
    | resolve t name =>
      simp only at hs
      split at hs
      · cases hs
        exact h.quiet hi t rfl (fun _ hu => if_neg hu) (by simp only [Proc.note, Proc.move, if_true]; trivial) (h.crashes.cons _ (by nofun))
      · cases hs
    | go t =>
      simp only at hs
      have hok := h.inv.ok t
      have hsu := h.sure t
      have mv : ∀ l, s' = s.move t l → Sure s.slots l → Safe s' := by
        rintro l rfl hl
        exact h.quiet hi t rfl (fun _ hu => if_neg hu) (by simp only [Proc.move, if_true]; exact hl) h.crashes
      have rt : ∀ e, s' = (s.move t .outside).note e → (∀ t c, e ≠ .crashed t c) → Safe s' := by
        rintro e rfl he
        exact h.quiet hi t rfl (fun _ hu => if_neg hu) (by simp only [Proc.note, Proc.move, if_true]; trivial)
          (h.crashes.cons _ fun t c hc => absurd hc (he t c))
      unfold Proc.go at hs
      cases ht : s.threads t with
      | outside => rw [ht] at hs; cases hs
      | seeking n m idx =>
        rw [ht] at hs hok
        simp only at hs
        obtain ⟨k, hk, rfl, hfull⟩ := hok
        have hst := path_start n k (by omega)
        split at hs
        · cases hs; exact mv _ rfl trivial
        · split at hs
          · rename_i hk'
            have hk2 := hst.mp hk'
            subst hk2
            cases hs
            refine h.quiet hi t rfl (fun _ _ => rfl) hsu (h.crashes.cons _ fun t' c hc => ?_)
            cases hc
            exact ⟨rfl, full_count h.inv m hfull⟩
          · cases hs; exact mv _ rfl trivial
      | storing n m idx =>
        rw [ht] at hs
        cases hs
        refine ⟨hi, fun u => ?_, h.crashes⟩
        by_cases e : u = t
        · subst e; simp only [Proc.move, if_true]; trivial
        · simp only [Proc.move, if_neg e]
          show Sure _ (s.threads u)
          rw [ha t u (by rw [ht]; rfl) e]; trivial
      | naming n m idx =>
        rw [ht] at hs
        cases hs
        refine ⟨hi, fun u => ?_, h.crashes.cons _ (by nofun)⟩
        by_cases e : u = t
        · subst e; simp only [Proc.note, Proc.move, if_true]; trivial
        · simp only [Proc.note, Proc.move, if_neg e]
          show Sure _ (s.threads u)
          rw [ha t u (by rw [ht]; rfl) e]; trivial
      | looking n idx k =>
        rw [ht] at hs
        simp only at hs
        split at hs <;> rename_i hm <;> cases hs
        · exact mv _ rfl (.inl hm)
        · exact mv _ rfl (by show (s.slots idx).m.isSome; rw [hm]; rfl)
      | comparing n idx k =>
        rw [ht] at hs hsu hok
        simp only at hs
        obtain ⟨m', n', hx⟩ := resolver_full h.inv ha (t := t) (by rw [ht]; rfl) hsu
        rw [hx] at hs
        simp only at hs
        split at hs
        · cases hs; exact mv _ rfl trivial
        · rename_i hc
          cases hs
          refine mv _ rfl ?_
          by_cases e : n' = n
          · subst e; exact .inr (.inr (by rw [hx]))
          · exact .inr (.inl (by have := hok.1; have : ¬ k < 256 := fun hk => hc ⟨e, hk⟩; omega))
      | again n idx k =>
        rw [ht] at hs hsu
        simp only at hs
        split at hs
        · cases hs; exact rt _ rfl (by nofun)
        · rename_i hc
          cases hs
          refine mv _ rfl ?_
          rcases hsu with hm | hk | hn
          · exact absurd (.inl (by rw [hm]; rfl)) hc
          · exact absurd (.inr hk) hc
          · exact hn
      | checking n idx k =>
        rw [ht] at hs hsu
        simp only at hs
        rw [show (s.slots idx).name = some n from hsu] at hs
        simp only [if_true] at hs
        cases hs
        exact mv _ rfl trivial
      | giving n idx k =>
        rw [ht] at hs
        cases hs
        exact rt _ rfl (by nofun)
  · cases hs

theorem run_safe {acts : List (Act μ)} {s s' : Proc μ} (h : Safe s) (h1 : Always Apart s acts) (hs : s.run acts = some s') : Safe s' := by
  induction acts generalizing s with
  | nil => cases hs; exact h
  | cons a r ih =>
    simp only [Proc.run, Option.bind_eq_some_iff] at hs
    obtain ⟨s1, h2, h3⟩ := hs
    exact ih (step_safe h h1.1 h2) (h1.2 s1 h2) h3

/-- As long as nobody else uses the registry while a proc publishes (any number of procs may resolve at the same time), the process crashes only
in a publication that finds 255 completed before it. -/
theorem C111_crash_partial (acts : List (Act μ)) (s : Proc μ) (hs : Proc.start.run acts = some s)
    (h1 : Always Apart Proc.start acts) (after before : List (Event μ)) (t : Nat) (why : Cause)
    (hlog : s.log = after ++ .crashed t why :: before) : why = .full ∧ 255 ≤ (completed before).length := by
  have h0 : Safe (Proc.start : Proc μ) := ⟨start_inv, fun _ => trivial, fun after t c before h => by cases after <;> cases h⟩
  exact (run_safe h0 h1 hs).crashes after t why before hlog

theorem completed_mono (after before : List (Event μ)) : (completed before).length ≤ (completed (after ++ before)).length := by
  induction after with
  | nil => exact Nat.le_refl _
  | cons e after ih =>
    cases e with
    | published t n m => simp only [List.cons_append, completed, List.length_append]; omega
    | _ => exact ih

/-- the same, as a promise: below 255 publications there is no crash at all -/
theorem C111_alive_partial (acts : List (Act μ)) (s : Proc μ) (hs : Proc.start.run acts = some s)
    (h1 : Always Apart Proc.start acts) (hn : (completed s.log).length < 255) (t : Nat) (why : Cause) : .crashed t why ∉ s.log := by
  intro hmem
  obtain ⟨after, before, hlog⟩ := List.append_of_mem hmem
  have h := (C111_crash_partial acts s hs h1 after before t why hlog).2
  have := completed_mono (after ++ [.crashed t why]) before
  rw [List.append_assoc, List.singleton_append, ← hlog] at this
  omega

/-! ### what goes wrong -/

/-- A proc that resolves the name that another proc is just publishing crashes the process: it reads the name before it is there. -/
theorem C111_null_wrong (name : List UInt8) (m : μ) :
    ((Proc.start : Proc μ).run [.publish 1 name m, .go 1, .go 1, .resolve 2 name, .go 2, .go 2]).map (·.log) =
      some [.crashed 2 .null, .resolving 2 name, .publishing 1 name m] := by
  have h : ¬ (fnv1aHash name).toNat % 256 = ((fnv1aHash name).toNat + 255) % 256 := by omega
  simp [Proc.run, Proc.act, Proc.go, Proc.start, Proc.move, Proc.note, Proc.write, Proc.crash, h]

/-- A proc that resolves a name while another publishes a different one with the same place: it finds the place empty, then taken, and an
assertion fails. -/
theorem C111_assert_wrong (a b : List UInt8) (m : μ) (hab : a ≠ b) (hslot : fnv1aHash a % 256 = fnv1aHash b % 256) :
    ((Proc.start : Proc μ).run [.resolve 2 a, .go 2, .publish 1 b m, .go 1, .go 1, .go 1, .go 2, .go 2]).map (·.log) =
      some [.crashed 2 .assertion, .published 1 b m, .publishing 1 b m, .resolving 2 a] := by
  have h : ¬ (fnv1aHash b).toNat % 256 = ((fnv1aHash b).toNat + 255) % 256 := by omega
  have h2 : (fnv1aHash a).toNat % 256 = (fnv1aHash b).toNat % 256 := by simpa using congrArg UInt64.toNat hslot
  simp [Proc.run, Proc.act, Proc.go, Proc.start, Proc.move, Proc.note, Proc.write, Proc.crash, h, h2, hab.symm]

theorem run_step {s s' : Proc μ} {a : Act μ} {r : List (Act μ)} (h : s.act a = some s') : s.run (a :: r) = s'.run r := by
  simp only [Proc.run, h, Option.bind_some]

/-- Two procs that publish different names with the same place at the same time: both publications return, and then the one name stands for the
mailbox published under the other, which stands for nothing. -/
theorem C111_race_wrong (a b : List UInt8) (ma mb : μ) (hab : a ≠ b) (hslot : fnv1aHash a % 256 = fnv1aHash b % 256) :
    ((Proc.start : Proc μ).run [.publish 1 a ma, .publish 2 b mb, .go 1, .go 2, .go 1, .go 2, .go 2, .go 1,
      .resolve 3 a, .go 3, .go 3, .go 3, .go 3, .go 3, .resolve 3 b, .go 3, .go 3, .go 3, .go 3]).map (·.log) =
      some [.resolved 3 b none, .resolving 3 b, .resolved 3 a (some mb), .resolving 3 a,
        .published 1 a ma, .published 2 b mb, .publishing 2 b mb, .publishing 1 a ma] := by
  obtain ⟨i, hb⟩ : ∃ i, (fnv1aHash b % 256).toNat = i := ⟨_, rfl⟩
  have ha : (fnv1aHash a % 256).toNat = i := by rw [hslot, hb]
  have hi : i < 256 := by rw [← hb, UInt64.toNat_mod]; exact Nat.mod_lt _ (by decide)
  have h3 : ¬ i = (i + 256 - 1) % 256 := by omega
  have h5 : ¬ (i + 1) % 256 = i := by omega
  iterate 19 refine (congrArg (Option.map _) (run_step (by
    simp only [Proc.act, Proc.go, Proc.start, Proc.move, Proc.note, Proc.write, ha, hb, h3, h5, if_true, if_false, ne_eq, hab, not_false_eq_true, and_true,
      Option.isSome_none, Option.isSome_some, Option.isNone_none, Option.isNone_some, reduceCtorEq, Nat.reduceEqDiff, Bool.false_eq_true, Nat.reduceLT,
      true_and, false_and, or_false, false_or, not_true_eq_false, Nat.reduceAdd]
    rfl))).trans ?_
  rfl

/-! ### cases -/

/-- the number of the thread that acts is below `N` -/
def Act.below (N : Nat) : Act μ → Bool
  | .publish t _ _ => t < N
  | .resolve t _ => t < N
  | .go t => t < N

theorem below_outside {N : Nat} {s s' : Proc μ} {a : Act μ} (ha : a.below N) (h : ∀ u, N ≤ u → s.threads u = .outside)
    (hs : s.act a = some s') : ∀ u, N ≤ u → s'.threads u = .outside := by
  have mv : ∀ (s1 : Proc μ) t l, s1.threads = s.threads → t < N → ∀ u, N ≤ u → (s1.move t l).threads u = .outside := by
    intro s1 t l e ht u hu
    simp only [Proc.move, e, if_neg (show u ≠ t by omega)]
    exact h u hu
  unfold Proc.act at hs
  split at hs
  · cases a with
    | publish t n m =>
      simp only at hs
      split at hs <;> cases hs
      exact mv s t _ rfl (by simpa [Act.below] using ha)
    | resolve t n =>
      simp only at hs
      split at hs <;> cases hs
      exact mv s t _ rfl (by simpa [Act.below] using ha)
    | go t =>
      have ht : t < N := by simpa [Act.below] using ha
      simp only [Proc.go] at hs
      repeat' split at hs
      all_goals cases hs
      all_goals first | exact h | exact mv s t _ rfl ht | exact mv (s.write _ _) t _ rfl ht
  · cases hs

/-- a check of the states of a run -/
def check (f : Proc μ → Bool) : Proc μ → List (Act μ) → Bool
  | s, [] => f s
  | s, a :: r => f s && match s.act a with | some s' => check f s' r | none => true

theorem always_of_check {P : Proc μ → Prop} {f : Proc μ → Bool} {N : Nat}
    (hf : ∀ s, (∀ u, N ≤ u → s.threads u = .outside) → f s → P s) (acts : List (Act μ)) (s : Proc μ)
    (h0 : ∀ u, N ≤ u → s.threads u = .outside) (hb : acts.all (·.below N)) (h : check f s acts) : Always P s acts := by
  induction acts generalizing s with
  | nil => exact hf s h0 h
  | cons a r ih =>
    simp only [List.all_cons, Bool.and_eq_true] at hb
    simp only [check, Bool.and_eq_true] at h
    refine ⟨hf s h0 h.1, fun s' hs => ih s' (below_outside hb.1 h0 hs) hb.2 ?_⟩
    have := h.2
    rw [hs] at this
    exact this

def At.isOutside : At μ → Bool
  | .outside => true
  | _ => false

theorem At.isOutside_eq {l : At μ} (h : l.isOutside) : l = .outside := by cases l <;> first | rfl | cases h

def oneCheck (N : Nat) (s : Proc μ) : Bool :=
  (List.range N).all fun t => (List.range N).all fun u => !(s.threads t).publishes || !(s.threads u).publishes || t == u

def apartCheck (N : Nat) (s : Proc μ) : Bool :=
  (List.range N).all fun t => (List.range N).all fun u => !(s.threads t).publishes || (s.threads u).isOutside || u == t

theorem one_of_check {N : Nat} (s : Proc μ) (h0 : ∀ u, N ≤ u → s.threads u = .outside) (h : oneCheck N s) : OnePublisher s := by
  intro t u ht hu
  have lt : ∀ v, (s.threads v).publishes → v < N := fun v hv =>
    Nat.lt_of_not_le fun hle => by rw [h0 v hle] at hv; cases hv
  have := List.all_eq_true.mp (List.all_eq_true.mp h t (List.mem_range.mpr (lt t ht))) u (List.mem_range.mpr (lt u hu))
  simpa [ht, hu] using this

theorem apart_of_check {N : Nat} (s : Proc μ) (h0 : ∀ u, N ≤ u → s.threads u = .outside) (h : apartCheck N s) : Apart s := by
  intro t u ht hu
  by_cases hlt : u < N
  · have lt : t < N := Nat.lt_of_not_le fun hle => by rw [h0 t hle] at ht; cases ht
    have := List.all_eq_true.mp (List.all_eq_true.mp h t (List.mem_range.mpr lt)) u (List.mem_range.mpr hlt)
    exact At.isOutside_eq (by simpa [ht, hu] using this)
  · exact h0 u (by omega)

/-- two names with the same place -/
def nameA : List UInt8 := [97]
def nameB : List UInt8 := [118, 109]
example : nameA ≠ nameB ∧ fnv1aHash nameA % 256 = fnv1aHash nameB % 256 := by decide +kernel

/-- a resolve that begins before a publication of the name and ends after it, another one in between that looks for the other name -/
def mixed : List (Act Nat) :=
  [.resolve 2 nameA, .publish 1 nameA 7, .go 2, .go 1, .resolve 3 nameB, .go 3, .go 3, .go 1, .go 1, .go 2, .go 2, .go 2]

example : ((Proc.start : Proc Nat).run mixed).map (·.log) =
    some [.resolved 2 nameA (some 7), .published 1 nameA 7, .resolved 3 nameB none, .resolving 3 nameB, .publishing 1 nameA 7,
      .resolving 2 nameA] := by decide +kernel
example : Always OnePublisher Proc.start mixed :=
  always_of_check (N := 4) one_of_check mixed Proc.start (fun _ _ => rfl) (by decide) (by decide +kernel)

/-- two publications, then two resolves at the same time -/
def turns : List (Act Nat) :=
  [.publish 1 nameA 7, .go 1, .go 1, .go 1, .publish 2 nameB 8, .go 2, .go 2, .go 2, .go 2,
   .resolve 1 nameB, .resolve 2 nameA, .go 1, .go 2, .go 1, .go 2, .go 1, .go 2, .go 1, .go 2, .go 2, .go 1, .go 1, .go 1]

example : ((Proc.start : Proc Nat).run turns).map (·.log) =
    some [.resolved 1 nameB (some 8), .resolved 2 nameA (some 7), .resolving 2 nameA, .resolving 1 nameB, .published 2 nameB 8,
      .publishing 2 nameB 8, .published 1 nameA 7, .publishing 1 nameA 7] := by decide +kernel
example : Always Apart Proc.start turns :=
  always_of_check (N := 4) apart_of_check turns Proc.start (fun _ _ => rfl) (by decide) (by decide +kernel)

end Cora.Registry
