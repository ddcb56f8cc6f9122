import Verif.Lemmas.GCLive
/-
Property theorems C32: marking terminates, and what the program cannot reach is reclaimed.
-/
namespace Cora.GC
variable [Layout]
set_option linter.unusedSectionVars false

/-! ## Marking terminates -/

/-- A marking phase in progress: from `c0` to `c`, all the time in the marking state, with `nr` rounds of
the marking loop and `na` steps that allocate (make a slot that was free an object in use); other steps are
not counted. -/
inductive Marking (c0 : Config) : Nat → Nat → Config → Prop where
  | nil (h : c0.st.phase = .incr) : Marking c0 0 0 c0
  | round {nr na s s' held} (h : Marking c0 nr na ⟨s, held⟩) (hr : gcRunIncremental1 s = some s')
      (hp : s'.phase = .incr) : Marking c0 (nr + 1) na ⟨s', held⟩
  | alloc {nr na c c' f} (h : Marking c0 nr na c) (hs : Step c f c') (hp : c'.st.phase = .incr) :
      Marking c0 nr (na + 1) c'
  | other {nr na c c' f} (h : Marking c0 nr na c) (hs : Step c f c') (hp : c'.st.phase = .incr)
      (hn : ∀ x, inuse c'.st (c'.st.obj x) ≠ 0 → inuse c.st (c.st.obj x) ≠ 0) : Marking c0 nr na c'

theorem round_phase {s s' : St} (h : gcRunIncremental1 s = some s') (hp : s'.phase = .incr) : ∃ x rest, s.gray = x :: rest := by
  cases hg : s.gray with
  | cons x rest => exact ⟨x, rest, rfl⟩
  | nil =>
    rw [run_nil hg] at h
    split at h
    · cases h; simp at hp
    · cases h; simp [gcFlip] at hp

/-- what one step of any kind does to the potential while marking -/
theorem step_pot {c c' : Config} {f : Freed} (hs : Step c f c') {G} (h : Inv c.st c.held G) (hp : c.st.phase = .incr)
    (hp' : c'.st.phase = .incr) (U : List SlotId) (hn : U.Nodup) (hU : ∀ y, (c.st.obj y).used = true → y ∈ U) :
    ∃ U' : List SlotId, U'.Nodup ∧ (∀ y, (c'.st.obj y).used = true → y ∈ U') ∧ M c'.st U' ≤ M c.st U + 44 ∧
      ((∀ x, inuse c'.st (c'.st.obj x) ≠ 0 → inuse c.st (c.st.obj x) ≠ 0) → M c'.st U' ≤ M c.st U) := by
  have same : ∀ s' : St, s'.obj = c.st.obj → s'.version = c.st.version → s'.gray = c.st.gray →
      ∃ U' : List SlotId, U'.Nodup ∧ (∀ y, (s'.obj y).used = true → y ∈ U') ∧ M s' U' ≤ M c.st U + 44 ∧
      ((∀ x, inuse s' (s'.obj x) ≠ 0 → inuse c.st (c.st.obj x) ≠ 0) → M s' U' ≤ M c.st U) := by
    intro s' h1 h2 h3
    have : M s' U = M c.st U := by
      unfold M potSum; rw [h3]
      have : pot s' = pot c.st := by funext x; unfold pot; rw [off_eq (by rw [h1]) h2]
      rw [this]
    exact ⟨U, hn, by rw [h1]; exact hU, by omega, fun _ => by omega⟩
  have le : ∀ s' : St, M s' U ≤ M c.st U → (∀ y, (s'.obj y).used = (c.st.obj y).used) →
      ∃ U' : List SlotId, U'.Nodup ∧ (∀ y, (s'.obj y).used = true → y ∈ U') ∧ M s' U' ≤ M c.st U + 44 ∧
      ((∀ x, inuse s' (s'.obj x) ≠ 0 → inuse c.st (c.st.obj x) ≠ 0) → M s' U' ≤ M c.st U) :=
    fun s' h1 h2 => ⟨U, hn, fun y hy => hU y (by rw [← h2]; exact hy), by omega, fun _ => h1⟩
  -- placing a new object
  have place : ∀ (s' : St) (x : SlotId), Dead c.st x → (∃ k, s'.obj x = newSlot c.st k) →
      (∀ y, y ≠ x → (s'.obj y).version = (c.st.obj y).version ∧ ((s'.obj y).used = true → (c.st.obj y).used = true)) →
      s'.version = c.st.version → s'.gray = c.st.gray → inuse c.st (c.st.obj x) = 0 →
      ∃ U' : List SlotId, U'.Nodup ∧ (∀ y, (s'.obj y).used = true → y ∈ U') ∧ M s' U' ≤ M c.st U + 44 ∧
      ((∀ x, inuse s' (s'.obj x) ≠ 0 → inuse c.st (c.st.obj x) ≠ 0) → M s' U' ≤ M c.st U) := by
    intro s' x hd hx ho hv hg hz
    obtain ⟨k, hx⟩ := hx
    have hoffx : off s' x = 2 := by
      unfold off offV; rw [hx, hv]; unfold newSlot; rw [hp]; simp only [reduceCtorEq, if_false]; omega
    have hoff : ∀ y, y ≠ x → off s' y = off c.st y := by
      intro y hy; unfold off; rw [(ho y hy).1, hv]
    have hnot : ¬ (∀ x, inuse s' (s'.obj x) ≠ 0 → inuse c.st (c.st.obj x) ≠ 0) := by
      intro hh
      refine hh x ?_ hz
      refine inuse_pos s' x ?_ ?_ (by omega)
      · rw [hx]; unfold newSlot; rw [hp]; simp only [reduceCtorEq, if_false]; omega
      · rw [hx]; rfl
    by_cases hxU : x ∈ U
    · refine ⟨U, hn, ?_, ?_, fun hh => absurd hh hnot⟩
      · intro y hy
        by_cases e : y = x
        · rw [e]; exact hxU
        · exact hU y ((ho y e).2 hy)
      · have := sum_raise (f := pot s') (g := pot c.st) U hn x 44
          (fun y _ hy => by unfold pot; rw [hoff y hy]; exact Nat.le_refl _) (by unfold pot; rw [hoffx]; omega)
        unfold M potSum; rw [hg]; omega
    · refine ⟨x :: U, List.nodup_cons.mpr ⟨hxU, hn⟩, ?_, ?_, fun hh => absurd hh hnot⟩
      · intro y hy
        by_cases e : y = x
        · simp [e]
        · exact List.mem_cons_of_mem _ (hU y ((ho y e).2 hy))
      · have h1 : (U.map (pot s')).sum ≤ (U.map (pot c.st)).sum := sum_mono U (fun y hy => by
          unfold pot; rw [hoff y (fun e => hxU (e ▸ hy))]; exact Nat.le_refl _)
        have h2 : pot s' x = 44 := by unfold pot; rw [hoffx]
        unfold M potSum
        simp only [List.map_cons, List.sum_cons]
        rw [hg, h2]; omega
  cases hs with
  | forget => exact same _ rfl rfl rfl
  | load => exact same _ rfl rfl rfl
  | store s s' held a i v ha hv hi hst =>
    have hst : storeField s a i v = some s' := hst
    obtain ⟨s'', e, -, hu, -⟩ := store_spec h a i v (h.held a ha) (fun x hx => h.held x (hv x hx))
    have e : storeField s a i v = some s'' := e
    rw [hst] at e; cases e
    refine le s' ?_ hu
    -- the two barriers
    unfold storeField barrierIncr at hst
    simp only [Option.bind_eq_bind] at hst
    cases e1 : markOld s a i with
    | none => rw [e1] at hst; simp at hst
    | some s1 =>
      rw [e1] at hst
      simp only [Option.bind_some] at hst
      have h1 : M s1 U ≤ M s U ∧ Base s1 ∧ Evolve s s1 := by
        have hp : s.phase = .incr := hp
        unfold markOld at e1
        rw [if_pos hp] at e1
        · split at e1
          · rename_i old _
            obtain ⟨s1', e', m, -⟩ := gcMark_spec s old none h.base (by simp)
            rw [e1] at e'; cases e'
            exact ⟨gcMark_pot h.base (by simp) e1 U hU, m.base, m.ev⟩
          · cases e1; exact ⟨Nat.le_refl _, h.base, Evolve.refl _⟩
      generalize hs2 : s1.setObj a { s1.obj a with kids := (s1.obj a).kids.set i v } = s2 at hst
      have hver : ∀ y, (s2.obj y).version = (s1.obj y).version ∧ (s2.obj y).used = (s1.obj y).used := by
        intro y; subst hs2; simp only [St.setObj, upd]; split <;> simp_all
      have hM2 : M s2 U = M s1 U := by
        unfold M potSum
        have hg : s2.gray = s1.gray := by subst hs2; rfl
        have : pot s2 = pot s1 := by
          funext y; unfold pot off; rw [(hver y).1]; subst hs2; rfl
        rw [hg, this]
      have hb2 : Base s2 := by
        have ho : ∀ y, off s2 y = off s1 y := by intro y; unfold off; rw [(hver y).1]; subst hs2; rfl
        have hb := h1.2.1
        constructor
        · subst hs2; exact hb.even
        · intro y; rw [(hver y).1]; exact hb.ver y
        · intro y; rw [(hver y).1]; exact hb.gen y
        · subst hs2; exact hb.nodup
        · intro y; rw [(hver y).1]; have := hb.odd y; subst hs2; exact this
        · intro y; rw [(hver y).2, ho]; have := hb.gray y; subst hs2; exact this
        · intro y; rw [(hver y).2, ho]; have := hb.touch y; subst hs2; exact this
        · subst hs2; exact hb.free
        · intro y; rw [(hver y).2]; have := hb.placed y; subst hs2; exact this
        · subst hs2; exact hb.listed
      have hU2 : ∀ y, (s2.obj y).used = true → y ∈ U := by
        intro y; rw [(hver y).2, h1.2.2.used]; exact hU y
      suffices M s' U ≤ M s2 U by have := h1.1; show M s' U ≤ M s U; omega
      unfold barrierGen at hst
      split at hst
      · cases hst; exact Nat.le_refl _
      · rename_i h'
        obtain ⟨f1, f2, f3, f4, f5, f6, f7, f8⟩ := addRSet_fields s2 a
        have hMr : M (addRSet s2 a) U = M s2 U := by
          unfold M potSum
          have : pot (addRSet s2 a) = pot s2 := by funext y; unfold pot; rw [off_eq (by rw [f1]) f2]
          rw [f4, this]
        split at hst
        · cases hst; exact Nat.le_refl _
        · split at hst
          · cases hst; omega
          · cases hst; omega
          · split at hst
            · cases hst; exact Nat.le_refl _
            · have := gcMark_pot (hb2.congr f1 f2 f4 f5 f6 f7) (by simp) hst U (by rw [f1]; exact hU2)
              omega
  | globalSet s s' held x hx hpp hm =>
    obtain ⟨s'', e, m, -⟩ := gcMark_spec s x none h.base (by simp)
    rw [e] at hm; cases hm
    exact le _ (gcMark_pot h.base (by simp) e U hU) m.ev.used
  | getBlock s s' held b n hl hn' hpp he =>
    unfold GC.getBlock at he
    split at he
    · cases he; exact same _ rfl rfl rfl
    · simp at he
  | allocTake s held b kids s' x hl hc hk ha =>
    unfold allocStep at ha
    simp only at ha
    split at ha
    · rename_i hz
      simp only [Prod.mk.injEq, Option.some.injEq] at ha
      obtain ⟨rfl, rfl⟩ := ha
      refine place _ (b, s.curr b) (dead_of_inuse h.base hz) ⟨kids, by simp [St.setObj, upd]⟩ ?_ ?_ ?_ hz
      · intro y hy
        simp only [St.setObj, upd, if_neg hy]
        split <;> exact ⟨rfl, id⟩
      · simp only [St.setObj]; split <;> rfl
      · simp only [St.setObj]; split <;> rfl
    · simp at ha
    · simp at ha
  | allocSkip s held b s' hl hc ha =>
    unfold allocStep at ha
    simp only at ha
    split at ha
    · simp at ha
    · simp only [Prod.mk.injEq, and_true] at ha
      subst ha; exact same _ rfl rfl rfl
    · simp only [Prod.mk.injEq, and_true] at ha
      subst ha; exact same _ rfl rfl rfl
  | pop => exact same _ rfl rfl rfl
  | allocLarge s held x merged kids hl hx hm hk =>
    refine place _ x (dead_of_inuse h.base hx) ⟨kids, by simp [GC.allocLarge, St.setObj, upd, newSlot]⟩ ?_ rfl rfl hx
    intro y hy
    simp only [GC.allocLarge, St.setObj, upd, if_neg hy]
    split <;> simp
  | start s s' held held' roots hpp hh hm => rw [hp] at hpp; simp at hpp
  | run s s' held hpp hr' =>
    obtain ⟨x, rest, hg⟩ := round_phase hr' hp'
    obtain ⟨s'', e, -, -, hu, -⟩ := process_spec h hp x rest hg
    have e : gcRunIncremental1 s = some s'' := e
    rw [hr'] at e; cases e
    have := process_pot h.base x rest hg hr' U hU
    exact le s' (by show M s' U ≤ M s U; have this : M s' U + 1 ≤ M s U := this; omega) hu
  | sweepSmall s held x hpp hl hx => rw [hp] at hpp; simp at hpp
  | sweepLarge s held x hpp hl hx => rw [hp] at hpp; simp at hpp
  | flip s held hpp _ => rw [hp] at hpp; simp at hpp

theorem marking_inv {c0 c : Config} {nr na : Nat} (h0 : Run c0) (U : List SlotId) (hn : U.Nodup)
    (hU : ∀ y, (c0.st.obj y).used = true → y ∈ U) (h : Marking c0 nr na c) :
    Run c ∧ c.st.phase = .incr ∧ ∃ U' : List SlotId, U'.Nodup ∧ (∀ y, (c.st.obj y).used = true → y ∈ U') ∧
      nr + M c.st U' ≤ M c0.st U + 44 * na := by
  induction h with
  | nil hp => exact ⟨h0, hp, U, hn, hU, by omega⟩
  | @round nr na s s' held _ hr hp ih =>
    obtain ⟨hrun, hph, U', hn', hU', hle⟩ := ih
    obtain ⟨G, hG⟩ := run_inv hrun
    obtain ⟨x, rest, hg⟩ := round_phase hr hp
    have h1 : M s' U' + 1 ≤ M s U' := process_pot hG.base x rest hg hr U' hU'
    obtain ⟨s'', e, -, -, hu, -⟩ := process_spec hG hph x rest hg
    have e : gcRunIncremental1 s = some s'' := e
    rw [hr] at e; cases e
    refine ⟨Run.step hrun (Step.run _ _ _ hph hr), hp, U', hn', fun y hy => hU' y (by rw [← hu]; exact hy), ?_⟩
    dsimp only at hle ⊢
    omega
  | alloc _ hs hp ih =>
    obtain ⟨hrun, hph, U', hn', hU', hle⟩ := ih
    obtain ⟨G, hG⟩ := run_inv hrun
    obtain ⟨U'', a, b, d, -⟩ := step_pot hs hG hph hp U' hn' hU'
    exact ⟨Run.step hrun hs, hp, U'', a, b, by omega⟩
  | other _ hs hp hno ih =>
    obtain ⟨hrun, hph, U', hn', hU', hle⟩ := ih
    obtain ⟨G, hG⟩ := run_inv hrun
    obtain ⟨U'', a, b, -, d⟩ := step_pot hs hG hph hp U' hn' hU'
    exact ⟨Run.step hrun hs, hp, U'', a, b, by have := d hno; omega⟩

/-- C32 (marking terminates). If `U` lists the objects allocated when we start looking, then however the
program and the collector are interleaved, the marking loop runs at most 49 rounds per object of `U` plus 44
per allocation made meanwhile before the marking phase is over. -/
theorem C32_marking_bounded {c0 c : Config} {nr na : Nat} (h0 : Run c0) (U : List SlotId) (hn : U.Nodup)
    (hU : ∀ y, (c0.st.obj y).used = true → y ∈ U) (h : Marking c0 nr na c) : nr ≤ 49 * U.length + 44 * na := by
  obtain ⟨_, _, U', _, _, hle⟩ := marking_inv h0 U hn hU h
  obtain ⟨G, hG⟩ := run_inv h0
  have := M_bound c0.st U hG.base hU
  omega

/-- C32. Each allocation runs up to 200 rounds of the marking loop first (src/gc.c:952); if it always does,
the marking phase is over before the number of allocations exceeds a third of the number of objects. -/
theorem C32_marking_keeps_up {c0 c : Config} {nr na : Nat} (h0 : Run c0) (U : List SlotId) (hn : U.Nodup)
    (hU : ∀ y, (c0.st.obj y).used = true → y ∈ U) (h : Marking c0 nr na c) (hk : 200 * na ≤ nr) :
    3 * na ≤ U.length := by
  have := C32_marking_bounded h0 U hn hU h
  omega

theorem exists_nodup (l : List SlotId) : ∃ l' : List SlotId, l'.Nodup ∧ ∀ x ∈ l, x ∈ l' := by
  induction l with
  | nil => exact ⟨[], by simp⟩
  | cons a l ih =>
    obtain ⟨l', h1, h2⟩ := ih
    by_cases h : a ∈ l'
    · exact ⟨l', h1, fun x hx => (List.mem_cons.mp hx).elim (fun e => e ▸ h) (h2 x)⟩
    · exact ⟨a :: l', List.nodup_cons.mpr ⟨h, h1⟩, fun x hx =>
        List.mem_cons.mpr ((List.mem_cons.mp hx).elim .inl (fun e => .inr (h2 x e)))⟩

/-- In every execution there are finitely many allocated objects, so the bound above is always finite. -/
theorem C32_finitely_many {c : Config} (h : Run c) :
    ∃ U : List SlotId, U.Nodup ∧ ∀ y, (c.st.obj y).used = true → y ∈ U := by
  have key : ∃ U : List SlotId, ∀ y, (c.st.obj y).used = true → y ∈ U := by
    induction h with
    | init => exact ⟨[], by simp [St.init, Slot.zero]⟩
    | @step c c' f hrun hs ih =>
      obtain ⟨U, hU⟩ := ih
      obtain ⟨G, hG⟩ := run_inv hrun
      -- a step allocates at most one slot
      suffices ∃ x, ∀ y, (c'.st.obj y).used = true → y = x ∨ (c.st.obj y).used = true by
        obtain ⟨x, hx⟩ := this
        exact ⟨x :: U, fun y hy => (hx y hy).elim (fun e => by simp [e]) (fun e => by simp [hU y e])⟩
      cases hs with
      | forget => exact ⟨(0, 0), fun y h => .inr h⟩
      | load => exact ⟨(0, 0), fun y h => .inr h⟩
      | store s s' held a i v ha hv hi hst =>
        obtain ⟨s'', e, -, hu, -⟩ := store_spec hG a i v (hG.held a ha) (fun x hx => hG.held x (hv x hx))
        have hst : storeField s a i v = some s' := hst
        rw [e] at hst; cases hst
        exact ⟨(0, 0), fun y h => .inr (by rw [hu] at h; exact h)⟩
      | globalSet s s' held x hx hpp hm =>
        obtain ⟨s'', e, m, -⟩ := gcMark_spec s x none hG.base (by simp)
        rw [e] at hm; cases hm
        exact ⟨(0, 0), fun y h => .inr (by rw [m.ev.used] at h; exact h)⟩
      | getBlock s s' held b n hl hn' hpp he =>
        unfold GC.getBlock at he
        split at he
        · cases he; exact ⟨(0, 0), fun y h => .inr h⟩
        · simp at he
      | allocTake s held b kids s' x hl hc hk ha =>
        unfold allocStep at ha
        simp only at ha
        split at ha
        · simp only [Prod.mk.injEq, Option.some.injEq] at ha
          obtain ⟨rfl, rfl⟩ := ha
          refine ⟨(b, s.curr b), fun y h => ?_⟩
          by_cases e : y = (b, s.curr b)
          · exact .inl e
          · right
            simp only [St.setObj, upd, if_neg e] at h
            split at h <;> exact h
        · simp at ha
        · simp at ha
      | allocSkip s held b s' hl hc ha =>
        unfold allocStep at ha
        simp only at ha
        split at ha
        · simp at ha
        · simp only [Prod.mk.injEq, and_true] at ha
          subst ha; exact ⟨(0, 0), fun y h => .inr h⟩
        · simp only [Prod.mk.injEq, and_true] at ha
          subst ha; exact ⟨(0, 0), fun y h => .inr h⟩
      | pop => exact ⟨(0, 0), fun y h => .inr h⟩
      | allocLarge s held x merged kids hl hx hm hk =>
        refine ⟨x, fun y h => ?_⟩
        by_cases e : y = x
        · exact .inl e
        · right
          simp only [GC.allocLarge, St.setObj, upd, if_neg e] at h
          split at h
          · simp at h
          · exact h
      | start s s' held held' roots hp hh hm =>
        obtain ⟨s'', e, -, hu, -⟩ := start_spec hG hp held' roots hh
        have hm : gcMarkRoot s roots = some s' := hm
        rw [e] at hm; cases hm
        exact ⟨(0, 0), fun y h => .inr (by rw [hu] at h; exact h)⟩
      | run s s' held hp hr' =>
        cases hg : s.gray with
        | cons x rest =>
          obtain ⟨s'', e, -, -, hu, -⟩ := process_spec hG hp x rest hg
          rw [e] at hr'; cases hr'
          exact ⟨(0, 0), fun y h => .inr (by rw [hu] at h; exact h)⟩
        | nil =>
          rw [run_nil hg] at hr'
          split at hr'
          · cases hr'; exact ⟨(0, 0), fun y h => .inr h⟩
          · cases hr'
            refine ⟨(0, 0), fun y h => .inr ?_⟩
            simp only [gcFlip] at h
            split at h
            · simp [Slot.zero] at h
            · exact h
      | sweepSmall s held x hp hl hx =>
        refine ⟨(0, 0), fun y h => .inr ?_⟩
        simp only [sweepSlot, St.setObj, upd] at h
        split at h
        · simp at h
        · exact h
      | sweepLarge s held x hp hl hx =>
        refine ⟨(0, 0), fun y h => .inr ?_⟩
        simp only [sweepSlot, St.setObj, upd] at h
        split at h
        · simp at h
        · exact h
      | flip s held hp _ =>
        refine ⟨(0, 0), fun y h => .inr ?_⟩
        simp only [gcFlip] at h
        split at h
        · simp [Slot.zero] at h
        · exact h
  obtain ⟨U, hU⟩ := key
  obtain ⟨V, hV, hm⟩ := exists_nodup U
  exact ⟨V, hV, fun y hy => hm y (hU y hy)⟩

end Cora.GC

/-! ### a case: a cycle in which the only root is processed and an object is allocated before marking ends -/
namespace Cora.GC.LiveCase

local instance noLarge : Layout := ⟨fun _ => false⟩

/-- one block with four slots; a vector in slot 0; a cycle has begun -/
def s1 : St := (getBlock St.init 0 4).getD St.init
def s2 : St := (allocStep s1 0 []).1
def s3 : St := (gcMarkRoot s2 [some (0, 0)]).getD St.init
/-- one round -/
def s4 : St := (gcRunIncremental1 s3).getD St.init
/-- an allocation, in slot 1 -/
def s5 : St := (allocStep s4 0 []).1

theorem some_getD {α : Type} (o : Option α) (d : α) (h : o.isSome = true) : o = some (o.getD d) := by
  cases o <;> simp_all

set_option maxRecDepth 4000 in
/-- a marking phase with one round and one allocation, and a list of the objects it began with -/
example : ∃ (c0 c : Config) (U : List SlotId), Run c0 ∧ Marking c0 1 1 c ∧ U.Nodup ∧ (∀ y, (c0.st.obj y).used = true → y ∈ U) := by
  have r1 : Run ⟨s1, []⟩ := Run.step .init (Step.getBlock _ _ _ 0 4 rfl rfl (by decide) (some_getD _ St.init (by decide)))
  have r2 : Run ⟨s2, [(0, 0)]⟩ := Run.step r1 (Step.allocTake s1 [] 0 [] s2 (0, 0) (by decide) (by decide) (by simp) rfl)
  have r3 : Run ⟨s3, [(0, 0)]⟩ :=
    Run.step r2 (Step.start _ _ _ [(0, 0)] [some (0, 0)] (by decide) (by simp) (some_getD _ St.init (by decide)))
  obtain ⟨U, hn, hU⟩ := C32_finitely_many r3
  exact ⟨_, ⟨s5, [(0, 1), (0, 0)]⟩, U, r3,
    .alloc (.round (.nil (by decide)) (some_getD _ St.init (by decide)) (by decide))
      (Step.allocTake s4 [(0, 0)] 0 [] s5 (0, 1) (by decide) (by decide) (by simp) rfl) (by decide), hn, hU⟩

end Cora.GC.LiveCase
