import Verif.Lemmas.GC2
/-
Property theorems C31 (the collector never frees what the program can reach).

`Step` and `Run` (Model/GC.lean) are the executions: any interleaving of a program that allocates, stores,
loads, forgets and overwrites globals with the steps of the collector. `Reach` is what the program can
reach. The layout (which blocks are large-object arenas) is arbitrary.
-/
namespace Cora.GC
variable [Layout]

theorem init_inv : Inv St.init [] (fun _ => False) := by
  constructor
  · constructor
    · constructor <;> intros <;> simp_all [St.init, Slot.zero]
    · simp
    · simp
    · simp [St.init]
    · intro _; rfl
    · simp
    · simp
  · simp

theorem run_nil {s : St} (hg : s.gray = []) : gcRunIncremental1 s =
    if s.version % 30 = 0 then some { s with phase := .sweep } else some (gcFlip s) := by
  unfold gcRunIncremental1
  split
  · rfl
  · rename_i h; rw [hg] at h; simp at h

/-- every step keeps the invariant, and what it frees is outside the invariant's set of live objects; the
fields of live objects only change by the program's stores -/
theorem step_inv {c c' : Config} {f : Freed} (hs : Step c f c') {G} (h : Inv c.st c.held G) :
    (∀ x, f x → ¬ G x) ∧ ∃ G', Inv c'.st c'.held G' := by
  cases hs with
  | forget s held held' hh => exact ⟨fun _ hf => hf.elim, G, h.mono (fun x hx => h.held x (hh x hx))⟩
  | load s held a i x ha hk =>
    refine ⟨fun _ hf => hf.elim, G, h.mono ?_⟩
    intro y hy
    rcases List.mem_cons.mp hy with rfl | hy
    · exact (h.live a (h.held a ha)).2.2 y (List.mem_of_getElem? hk)
    · exact h.held y hy
  | store s s' held a i v ha hv hi hst =>
    obtain ⟨s'', e, hi, -⟩ := store_spec h a i v (h.held a ha) (fun x hx => h.held x (hv x hx))
    have hst : storeField s a i v = some s' := hst
    rw [e] at hst; cases hst
    exact ⟨fun _ hf => hf.elim, G, hi⟩
  | globalSet s s' held x hx hp hm =>
    obtain ⟨s'', e, m, -⟩ := gcMark_spec s x none h.base (by simp)
    rw [e] at hm; cases hm
    exact ⟨fun _ hf => hf.elim, G, h.evolve hp m.base m.ev⟩
  | getBlock s s' held b n hl hn hp he =>
    refine ⟨fun _ hf => hf.elim, G, ?_⟩
    unfold GC.getBlock at he
    split at he
    · rename_i ht
      simp only [Option.some.injEq] at he
      subst he
      refine h.congr rfl rfl rfl rfl rfl (fun _ h => h) ?_ ?_ ?_
      · intro b' hb'; show upd s.nslots b n b' ≠ 0; unfold upd; split
        · omega
        · exact hb'
      · intro b' hl' hn'
        have hn' : upd s.nslots b n b' = 0 := hn'
        unfold upd at hn'
        split at hn'
        · omega
        · exact h.base.free b' hl' hn'
      · intro b' hb'
        have hb' : upd s.listed b true b' = true := hb'
        show _ ∧ upd s.nslots b n b' ≠ 0
        unfold upd at hb' ⊢
        split
        · rename_i e; subst e; exact ⟨hl, by omega⟩
        · rename_i e; rw [if_neg e] at hb'; exact h.base.listed b' hb'
    · simp at he
  | allocTake s held b kids s' x hl hc hk ha =>
    have hl : s.listed b = true := hl
    unfold allocStep at ha
    simp only at ha
    split at ha
    · rename_i hz
      simp only [Prod.mk.injEq, Option.some.injEq] at ha
      obtain ⟨ha, rfl⟩ := ha
      have hd := dead_of_inuse h.base hz
      have hpl := h.base.listed b hl
      refine ⟨fun y hf hG => h.not_dead hG (hf ▸ hd), (fun y => y = (b, s.curr b) ∨ G y), ?_⟩
      subst ha
      refine h.alloc (b, s.curr b) kids hd (fun y hy => h.held y (hk y hy)) ?_ ?_ ?_ ?_ ?_ ?_ ?_
        (.inr hpl.2) ?_ ?_ ?_
      all_goals (by_cases hp : s.phase = .none)
      all_goals (simp only [hp, if_true, if_false, St.setObj, St.setTouch, upd, reduceCtorEq])
      all_goals (try simp only [ne_eq, not_true_eq_false, false_implies, not_false_eq_true, implies_true, true_implies])
      all_goals (try trivial)
      all_goals (intro b' hb')
      all_goals (try (split <;> simp_all))
      all_goals (try (left; exact hb'))
      all_goals (by_cases e : b' = b <;> simp_all)
    · simp at ha
    · simp at ha
  | allocSkip s held b s' hl hc ha =>
    have hl : s.listed b = true := hl
    refine ⟨fun _ hf => hf.elim, G, ?_⟩
    have hpl := h.base.listed b hl
    unfold allocStep at ha
    simp only at ha
    split at ha
    · simp at ha
    · simp only [Prod.mk.injEq, and_true] at ha
      subst ha
      exact h.congr rfl rfl rfl rfl rfl (fun _ h => h) (fun _ h => h) h.base.free h.base.listed
    · simp only [Prod.mk.injEq, and_true] at ha
      subst ha
      refine h.congr rfl rfl rfl rfl rfl ?_ (fun _ h => h) ?_ h.base.listed
      · intro b' hb'; show upd s.touch b true b' = true; unfold upd; split <;> first | rfl | exact hb'
      · intro b' hl' hn'
        have hn' : s.nslots b' = 0 := hn'
        show upd s.touch b true b' = false
        unfold upd
        rw [if_neg (by intro e; subst e; exact hpl.2 hn')]
        exact h.base.free b' hl' hn'
  | pop s held b hl hc =>
    refine ⟨fun _ hf => hf.elim, G, ?_⟩
    refine h.congr rfl rfl rfl rfl rfl (fun _ h => h) (fun _ h => h) h.base.free ?_
    intro b' hb'
    have hb' : upd s.listed b false b' = true := hb'
    unfold upd at hb'
    split at hb'
    · simp at hb'
    · exact h.base.listed b' hb'
  | allocLarge s held x merged kids hl hx hm hk =>
    have hdead : ∀ y, y = x ∨ y ∈ merged → Dead s y := by
      intro y hy
      rcases hy with rfl | hy
      · exact dead_of_inuse h.base hx
      · exact dead_of_inuse h.base (hm y hy).2
    refine ⟨fun y hf hG => h.not_dead hG (hdead y hf), (fun y => y = x ∨ G y), ?_⟩
    have hk' := h.kill (fun y => y ∈ merged) (fun y hy => hdead y (.inr hy)) rfl
    refine hk'.alloc x kids ?_ (fun y hy => h.held y (hk y hy)) ?_ rfl rfl rfl rfl rfl rfl (.inl hl)
      (fun _ h => h) (fun _ h => .inl h) (fun _ h' => by rw [hl] at h'; simp at h')
    · intro ⟨hu, ho⟩
      dsimp only at hu
      split at hu
      · simp at hu
      · refine hdead x (.inl rfl) ⟨hu, ?_⟩
        unfold off at ho ⊢
        simp only at ho
        split at ho <;> simpa using ho
    · rfl
  | start s s' held held' roots hp hh hm =>
    obtain ⟨s'', e, hi, -⟩ := start_spec h hp held' roots hh
    have hm : gcMarkRoot s roots = some s' := hm
    rw [e] at hm; cases hm
    exact ⟨fun _ hf => hf.elim, _, hi⟩
  | run s s' held hp hr =>
    cases hg : s.gray with
    | cons x rest =>
      obtain ⟨s'', e, hi, -, hu, -⟩ := process_spec h hp x rest hg
      rw [e] at hr; cases hr
      refine ⟨fun y hf => ?_, G, hi⟩
      dsimp only at hf hu
      rw [hu] at hf; simp [hf.1] at hf
    | nil =>
      rw [run_nil hg] at hr
      have hsw := to_sweep h hp hg
      split at hr
      · cases hr
        exact ⟨fun y hf => by simp [hf.1] at hf, G, hsw⟩
      · cases hr
        have := flip_spec hsw rfl
        have e : gcFlip { s with phase := .sweep } = gcFlip s := rfl
        rw [e] at this
        refine ⟨fun y hf hG => ?_, G, this.1⟩
        dsimp only at hf this
        rw [this.2 y hG] at hf
        simp [hf.1] at hf
  | sweepSmall s held x hp hl hx =>
    have hd := dead_of_inuse h.base hx
    refine ⟨fun y hf hG => h.not_dead hG (hf ▸ hd), G, ?_⟩
    refine h.kill (fun y => y = x) (fun y hy => hy ▸ hd) ?_
    simp only [sweepSlot, St.setObj]
    congr 1
    funext y
    unfold upd
    split <;> simp_all
  | sweepLarge s held x hp hl hx =>
    have hd : Dead s x := by
      intro ⟨_, ho⟩
      have := h.base.even
      have hlt : s.version % 64 < 64 := Nat.mod_lt _ (by decide)
      unfold off offV at ho
      rw [hx] at ho
      omega
    refine ⟨fun y hf hG => h.not_dead hG (hf ▸ hd), G, ?_⟩
    refine h.kill (fun y => y = x) (fun y hy => hy ▸ hd) ?_
    simp only [sweepSlot, St.setObj]
    congr 1
    funext y
    unfold upd
    split <;> simp_all
  | flip s held hp _ =>
    have := flip_spec h hp
    refine ⟨fun y hf hG => ?_, G, this.1⟩
    dsimp only at hf this
    rw [this.2 y hG] at hf
    simp [hf.1] at hf

theorem run_inv {c : Config} (h : Run c) : ∃ G, Inv c.st c.held G := by
  induction h with
  | init => exact ⟨_, init_inv⟩
  | step _ hs ih => obtain ⟨G, hG⟩ := ih; exact (step_inv hs hG).2

theorem reach_live {c : Config} {G} (h : Inv c.st c.held G) {x} (hx : Reach c x) : G x := by
  induction hx with
  | held hx => exact h.held _ hx
  | field _ hk ih => exact (h.live _ ih).2.2 _ hk

/-- C31. In every execution, no step of the allocator or the collector reuses, sweeps or recycles the
memory of an object the program can reach. -/
theorem C31_never_frees_reachable {c c' : Config} {f : Freed} (h : Run c) (hs : Step c f c') (x : SlotId)
    (hx : Reach c x) : ¬ f x := by
  obtain ⟨G, hG⟩ := run_inv h
  exact fun hf => (step_inv hs hG).1 x hf (reach_live hG hx)

/-- C31. In every execution the objects the program can reach are allocated objects. -/
theorem C31_reachable_allocated {c : Config} (h : Run c) (x : SlotId) (hx : Reach c x) :
    (c.st.obj x).used = true ∧ inuse c.st (c.st.obj x) ≠ 0 := by
  obtain ⟨G, hG⟩ := run_inv h
  have := hG.live x (reach_live hG hx)
  have h24 := hG.live24 (reach_live hG hx)
  exact ⟨this.1, inuse_pos _ _ (hG.base.ver x) this.1 (by omega)⟩

/-- C31. In every execution, an object the program can reach keeps all its fields across every step, except
that a store by the program replaces one field of one object. -/
theorem C31_contents_kept {c c' : Config} {f : Freed} (h : Run c) (hs : Step c f c') :
    (∀ x, Reach c x → (c'.st.obj x).kids = (c.st.obj x).kids) ∨
    (∃ a ∈ c.held, ∃ i v, i < (c.st.obj a).kids.length ∧ (∀ y, v = some y → y ∈ c.held) ∧
      storeField c.st a i v = some c'.st ∧
      ∀ x, Reach c x → (c'.st.obj x).kids = if x = a then (c.st.obj a).kids.set i v else (c.st.obj x).kids) := by
  obtain ⟨G, hG⟩ := run_inv h
  have hr := fun x hx => reach_live (c := c) hG (x := x) hx
  have hfree := fun x (hx : Reach c x) hf => (step_inv hs hG).1 x hf (hr x hx)
  cases hs with
  | forget => exact .inl (fun _ _ => rfl)
  | load => exact .inl (fun _ _ => rfl)
  | store s s' held a i v ha hv hi hst =>
    obtain ⟨s'', e, -, -, hk⟩ := store_spec hG a i v (hG.held a ha) (fun x hx => hG.held x (hv x hx))
    have hst' : storeField s a i v = some s' := hst
    rw [e] at hst'; cases hst'
    exact .inr ⟨a, ha, i, v, hi, hv, hst, fun x _ => hk x⟩
  | globalSet s s' held x hx hp hm =>
    obtain ⟨s'', e, m, -⟩ := gcMark_spec s x none hG.base (by simp)
    rw [e] at hm; cases hm
    exact .inl (fun y _ => m.ev.kids y)
  | getBlock s s' held b n hl hn hp he =>
    unfold GC.getBlock at he
    split at he
    · cases he; exact .inl (fun _ _ => rfl)
    · simp at he
  | allocTake s held b kids s' x hl hc hk ha =>
    unfold allocStep at ha
    simp only at ha
    split at ha
    · simp only [Prod.mk.injEq, Option.some.injEq] at ha
      obtain ⟨rfl, rfl⟩ := ha
      refine .inl (fun y hy => ?_)
      have hne : y ≠ (b, s.curr b) := fun e => hfree y hy e
      simp only [St.setObj, upd, if_neg hne]
      split <;> rfl
    · simp at ha
    · simp at ha
  | allocSkip s held b s' hl hc ha =>
    unfold allocStep at ha
    simp only at ha
    split at ha
    · simp at ha
    · simp only [Prod.mk.injEq, and_true] at ha
      subst ha; exact .inl (fun _ _ => rfl)
    · simp only [Prod.mk.injEq, and_true] at ha
      subst ha; exact .inl (fun _ _ => rfl)
  | pop => exact .inl (fun _ _ => rfl)
  | allocLarge s held x merged kids hl hx hm hk =>
    refine .inl (fun y hy => ?_)
    have h1 : y ≠ x := fun e => hfree y hy (.inl e)
    have h2 : y ∉ merged := fun e => hfree y hy (.inr e)
    simp only [GC.allocLarge, St.setObj, upd, if_neg h1, if_neg h2]
  | start s s' held held' roots hp hh hm =>
    obtain ⟨s'', e, -, -, hk⟩ := start_spec hG hp held' roots hh
    have hm : gcMarkRoot s roots = some s' := hm
    rw [e] at hm; cases hm
    exact .inl (fun x _ => hk x)
  | run s s' held hp hr' =>
    cases hg : s.gray with
    | cons x rest =>
      obtain ⟨s'', e, -, -, -, hk⟩ := process_spec hG hp x rest hg
      rw [e] at hr'; cases hr'
      exact .inl (fun y _ => hk y)
    | nil =>
      rw [run_nil hg] at hr'
      split at hr'
      · cases hr'; exact .inl (fun _ _ => rfl)
      · cases hr'
        have := flip_spec (to_sweep hG hp hg) rfl
        refine .inl (fun y hy => ?_)
        have e := this.2 y (hr y hy)
        show ((gcFlip s).obj y).kids = _
        rw [show gcFlip s = gcFlip { s with phase := .sweep } from rfl, e]
  | sweepSmall s held x hp hl hx =>
    refine .inl (fun y hy => ?_)
    simp only [sweepSlot, St.setObj, upd]
    split
    · rename_i e; subst e; rfl
    · rfl
  | sweepLarge s held x hp hl hx =>
    refine .inl (fun y hy => ?_)
    simp only [sweepSlot, St.setObj, upd]
    split
    · rename_i e; subst e; rfl
    · rfl
  | flip s held hp _ =>
    refine .inl (fun y hy => ?_)
    show ((gcFlip s).obj y).kids = _
    rw [(flip_spec hG hp).2 y (hr y hy)]

/-- C31. In every execution, none of the collector's assertions fails: marking (from roots that may contain
any words, from the write barriers, and from the gray queue) always completes, and so does giving a size
class to an unused block. -/
theorem C31_no_assertion_fails {c : Config} (h : Run c) :
    (∀ x, (gcMark c.st x none).isSome) ∧
    (∀ a ∈ c.held, ∀ i v, (∀ y, v = some y → y ∈ c.held) → (storeField c.st a i v).isSome) ∧
    (c.st.phase = .none → ∀ roots, (gcMarkRoot c.st roots).isSome) ∧
    (c.st.phase = .incr → (gcRunIncremental1 c.st).isSome) ∧
    (∀ b n, Layout.large b = false → c.st.nslots b = 0 → (getBlock c.st b n).isSome) := by
  obtain ⟨G, hG⟩ := run_inv h
  refine ⟨?_, ?_, ?_, ?_, ?_⟩
  · intro x
    obtain ⟨s', e, -⟩ := gcMark_spec c.st x none hG.base (by simp)
    rw [e]; rfl
  · intro a ha i v hv
    obtain ⟨s', e, -⟩ := store_spec hG a i v (hG.held a ha) (fun x hx => hG.held x (hv x hx))
    rw [e]; rfl
  · intro hp roots
    obtain ⟨s', e, -⟩ := start_spec hG hp [] roots (by simp)
    rw [e]; rfl
  · intro hp
    cases hg : c.st.gray with
    | cons x rest =>
      obtain ⟨s', e, -⟩ := process_spec hG hp x rest hg
      rw [e]; rfl
    | nil =>
      rw [run_nil hg]; split <;> rfl
  · intro b n hl hn
    unfold getBlock
    rw [if_pos (hG.base.free b hl hn)]; rfl

/-! ### In-place `vectorAppend` -/

/-- executions in which the program may also append in place with `vectorAppend`, which has no write
barrier (src/types.c:329-330) -/
inductive RunA : Config → Prop where
  | init : RunA ⟨St.init, []⟩
  | step {c c' : Config} {f : Freed} (h : RunA c) (hs : Step c f c') : RunA c'
  | append {s : St} {held} (h : RunA ⟨s, held⟩) (a) (v : Option SlotId) (ha : a ∈ held)
      (hv : ∀ y, v = some y → y ∈ held) : RunA ⟨appendField s a v, held⟩

end Cora.GC

namespace Cora.GC.Witness
open Cora.GC

/-- no large-object arenas -/
local instance noLarge : Layout := ⟨fun _ => false⟩

/-- one block with four slots; a vector in slot 0 -/
def s1 : St := (getBlock St.init 0 4).getD St.init
def s2 : St := (allocStep s1 0 []).1
/-- a full cycle: start with the vector as only root, process it, finish -/
def cyc (s : St) : St :=
  let s := (gcMarkRoot s [some (0, 0)]).getD St.init
  let s := (gcRunIncremental1 s).getD St.init
  (gcRunIncremental1 s).getD St.init
def s3 : St := cyc s2
def s4 : St := cyc s3
/-- the vector is now two versions ahead; skip it and allocate a young object in slot 1 -/
def s5 : St := (allocStep s4 0 []).1
def s6 : St := (allocStep s5 0 []).1
/-- append the young object in place -/
def s7 : St := appendField s6 (0, 0) (some (0, 1))
/-- a cycle with the vector as only root: it is skipped as old, nothing is gray -/
def s8 : St := (gcMarkRoot s7 [some (0, 0)]).getD St.init
def s9 : St := (gcRunIncremental1 s8).getD St.init
def s10 : St := (allocStep s9 0 []).1
/-- the next allocation takes slot 1 -/
def s11 : St := (allocStep s10 0 []).1

theorem some_getD {α : Type} (o : Option α) (d : α) (h : o.isSome = true) : o = some (o.getD d) := by
  cases o <;> simp_all

/-- one cycle is an execution -/
theorem cyc_run {R : Config → Prop} (hR : ∀ {c c' f}, R c → Step c f c' → R c') {s : St} (h : R ⟨s, [(0, 0)]⟩)
    (h1 : s.phase = .none) (h2 : (gcMarkRoot s [some (0, 0)]).isSome = true)
    (h3 : ((gcMarkRoot s [some (0, 0)]).getD St.init).phase = .incr)
    (h4 : (gcRunIncremental1 ((gcMarkRoot s [some (0, 0)]).getD St.init)).isSome = true)
    (h5 : ((gcRunIncremental1 ((gcMarkRoot s [some (0, 0)]).getD St.init)).getD St.init).phase = .incr)
    (h6 : (gcRunIncremental1 ((gcRunIncremental1 ((gcMarkRoot s [some (0, 0)]).getD St.init)).getD St.init)).isSome = true) :
    R ⟨cyc s, [(0, 0)]⟩ := by
  have a := hR h (Step.start _ _ _ [(0, 0)] _ h1 (by simp) (some_getD _ St.init h2))
  have b := hR a (Step.run _ _ _ h3 (some_getD _ St.init h4))
  exact hR b (Step.run _ _ _ h5 (some_getD _ St.init h6))

theorem to_s6 {R : Config → Prop} (h0 : R ⟨St.init, []⟩) (hR : ∀ {c c' f}, R c → Step c f c' → R c') :
    R ⟨s6, [(0, 1), (0, 0)]⟩ := by
  have r1 : R ⟨s1, []⟩ := hR h0 (Step.getBlock _ _ _ 0 4 rfl rfl (by decide) (some_getD _ St.init (by decide)))
  have r2 : R ⟨s2, [(0, 0)]⟩ := hR r1 (Step.allocTake s1 [] 0 [] s2 (0, 0) (by decide) (by decide) (by simp) rfl)
  have r3 : R ⟨s3, [(0, 0)]⟩ := cyc_run hR r2 rfl (by decide) (by decide) (by decide) (by decide) (by decide)
  have r4 : R ⟨s4, [(0, 0)]⟩ := cyc_run hR r3 (by decide) (by decide) (by decide) (by decide) (by decide) (by decide)
  have r5 : R ⟨s5, [(0, 0)]⟩ := hR r4 (Step.allocSkip s4 _ 0 s5 (by decide) (by decide) rfl)
  exact hR r5 (Step.allocTake s5 _ 0 [] s6 (0, 1) (by decide) (by decide) (by simp) rfl)

set_option maxRecDepth 4000 in
/-- C31, where the code breaks it: with an in-place `vectorAppend` of a young object to an old vector there
is an execution that reuses the memory of an object the program can still reach. -/
theorem C31_vector_append_unsafe : ∃ c f c' x, RunA c ∧ Step c f c' ∧ Reach c x ∧ f x := by
  have r6 : RunA ⟨s6, [(0, 1), (0, 0)]⟩ := to_s6 RunA.init (fun h hs => RunA.step h hs)
  have r7 : RunA ⟨s7, [(0, 1), (0, 0)]⟩ := RunA.append r6 (0, 0) (some (0, 1)) (by simp) (by simp)
  have r8 : RunA ⟨s8, [(0, 0)]⟩ :=
    RunA.step r7 (Step.start _ _ _ [(0, 0)] [some (0, 0)] (by decide) (by simp) (some_getD _ St.init (by decide)))
  have r9 : RunA ⟨s9, [(0, 0)]⟩ := RunA.step r8 (Step.run _ _ _ (by decide) (some_getD _ St.init (by decide)))
  have r10 : RunA ⟨s10, [(0, 0)]⟩ := RunA.step r9 (Step.allocSkip s9 _ 0 s10 (by decide) (by decide) rfl)
  refine ⟨⟨s10, [(0, 0)]⟩, _, _, (0, 1), r10,
    Step.allocTake s10 [(0, 0)] 0 [] s11 (0, 1) (by decide) (by decide) (by simp) rfl, ?_, rfl⟩
  exact Reach.field (a := (0, 0)) (.held (by simp)) (by decide)

def t8 : St := (gcMarkRoot s6 [some (0, 0)]).getD St.init
def t9 : St := (gcRunIncremental1 t8).getD St.init
def t10 : St := (allocStep t9 0 []).1

set_option maxRecDepth 4000 in
/-- Non-vacuity of the C31 theorems: an execution in which a vector survives several cycles and stays
reachable, while the slot of a forgotten object is reused. -/
example : ∃ c f c' x y, Run c ∧ Step c f c' ∧ Reach c x ∧ f y ∧ (c.st.obj y).used = true := by
  have r6 : Run ⟨s6, [(0, 1), (0, 0)]⟩ := to_s6 Run.init (fun h hs => Run.step h hs)
  have r8 : Run ⟨t8, [(0, 0)]⟩ :=
    Run.step r6 (Step.start _ _ _ [(0, 0)] [some (0, 0)] (by decide) (by simp) (some_getD _ St.init (by decide)))
  have r9 : Run ⟨t9, [(0, 0)]⟩ := Run.step r8 (Step.run _ _ _ (by decide) (some_getD _ St.init (by decide)))
  have r10 : Run ⟨t10, [(0, 0)]⟩ := Run.step r9 (Step.allocSkip t9 _ 0 t10 (by decide) (by decide) (Prod.ext rfl (by decide)))
  exact ⟨_, _, _, (0, 0), (0, 1), r10,
    Step.allocTake t10 [(0, 0)] 0 [] (allocStep t10 0 []).1 (0, 1) (by decide) (by decide) (by simp) (Prod.ext rfl (by decide)),
    .held (by simp), rfl, by decide⟩

end Cora.GC.Witness
