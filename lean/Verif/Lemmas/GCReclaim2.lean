import Verif.Lemmas.GCReclaim
/- Lemmas for C32: the steps of program and collector, as far as unreachable objects are concerned. -/
namespace Cora.GC
variable [Layout]
set_option linter.unusedSectionVars false

/-- every step keeps `Small` -/
theorem small_step {c c' : Config} {f : Freed} (hs : Step c f c') {G} (hI : Inv c.st c.held G) (h : Small c.st) :
    Small c'.st := by
  cases hs with
  | forget => exact h
  | load => exact h
  | store s s' held a i v ha hv hi hst =>
    exact h.calm (store_frame hI (hI.held a ha) (fun x hx => hI.held x (hv x hx)) hst).1
  | globalSet s s' held x hx hp hm =>
    obtain ⟨s'', e, m, -⟩ := gcMark_spec s x none hI.base (by simp)
    rw [e] at hm; cases hm
    exact h.calm (Calm.of_evolve m.ev m.base (by rw [hp]; simp))
  | getBlock s s' held b n hl hn hp he =>
    unfold GC.getBlock at he
    split at he
    · cases he
      have hne : ∀ x : SlotId, Layout.large x.1 = false → (s.obj x).used = true → x.1 ≠ b := by
        intro x hl hu e
        have := h.fit x hl hu
        have hn : s.nslots b = 0 := hn
        have this : x.2 < s.nslots x.1 := this
        rw [e, hn] at this; omega
      constructor
      · intro x hl hu
        simp only [upd, if_neg (hne x hl hu)]; exact h.fit x hl hu
      · intro x hl hu
        have := h.near x hl hu
        simp only [upd, if_neg (hne x hl hu)]; exact this
      · exact h.swept
    · simp at he
  | allocTake s held b kids s' x hl hc hk ha =>
    unfold allocStep at ha
    simp only at ha
    split at ha
    · rename_i hz
      simp only [Prod.mk.injEq, Option.some.injEq] at ha
      obtain ⟨ha, rfl⟩ := ha
      have hver : s'.version = s.version := by subst ha; simp only [St.setObj]; split <;> rfl
      have hph : s'.phase = s.phase := by subst ha; simp only [St.setObj]; split <;> rfl
      have hns : s'.nslots = s.nslots := by subst ha; simp only [St.setObj]; split <;> rfl
      have hli : s'.listed = s.listed := by subst ha; simp only [St.setObj]; split <;> rfl
      have hcu : s'.curr = upd s.curr b (s.curr b + 1) := by subst ha; simp only [St.setObj]; split <;> rfl
      have hself : s'.obj (b, s.curr b) = newSlot s kids := by subst ha; simp [St.setObj, upd]
      have hoth : ∀ y, y ≠ (b, s.curr b) → s'.obj y = s.obj y := by
        intro y hy; subst ha
        simp only [St.setObj, upd, if_neg hy]; split <;> rfl
      constructor
      · intro y hly hu
        show y.2 < s'.nslots y.1
        rw [hns]
        by_cases e : y = (b, s.curr b)
        · rw [e]; exact hc
        · have hu : (s'.obj y).used = true := hu
          rw [hoth y e] at hu; exact h.fit y hly hu
      · intro y hly hu
        have hu : (s'.obj y).used = true := hu
        show off s' y ≤ lim s' ∨ (62 - (s'.version + 28) % 30 ≤ off s' y ∧ s'.listed y.1 = true ∧ s'.curr y.1 ≤ y.2)
        by_cases e : y = (b, s.curr b)
        · left
          subst e
          have hev := hI.base.even
          have hev : s.version % 2 = 0 := hev
          rw [lim_eq hph hver]
          unfold off offV lim
          rw [hself, hver]
          unfold newSlot
          simp only
          split <;> omega
        · rw [hoth y e] at hu
          rw [off_eq (hoth y e) hver, lim_eq hph hver, hver, hli, hcu]
          rcases h.near y hly hu with hn | hn
          · exact .inl hn
          · right
            refine ⟨hn.1, hn.2.1, ?_⟩
            have h3 : s.curr y.1 ≤ y.2 := hn.2.2
            unfold upd
            split
            · rename_i eb
              rw [eb] at h3
              have : y.2 ≠ s.curr b := fun e2 => e (Prod.ext eb e2)
              omega
            · exact h3
      · show s'.phase = .sweep → s'.version % 30 = 0
        rw [hph, hver]; exact h.swept
    · simp at ha
    · simp at ha
  | allocSkip s held b s' hl hc ha =>
    unfold allocStep at ha
    simp only at ha
    have hz : inuse s (s.obj (b, s.curr b)) ≠ 0 := by
      intro hz; rw [hz] at ha; simp at ha
    have key : s'.version = s.version ∧ s'.phase = s.phase ∧ s'.nslots = s.nslots ∧ s'.listed = s.listed ∧
        s'.obj = s.obj ∧ s'.curr = upd s.curr b (s.curr b + 1) := by
      split at ha
      · simp at ha
      · simp only [Prod.mk.injEq, and_true] at ha
        subst ha; exact ⟨rfl, rfl, rfl, rfl, rfl, rfl⟩
      · simp only [Prod.mk.injEq, and_true] at ha
        subst ha; exact ⟨rfl, rfl, rfl, rfl, rfl, rfl⟩
    obtain ⟨k1, k2, k3, k4, k5, k6⟩ := key
    constructor
    · intro y hly hu
      have hu : (s'.obj y).used = true := hu
      rw [k5] at hu
      show y.2 < s'.nslots y.1
      rw [k3]; exact h.fit y hly hu
    · intro y hly hu
      have hu : (s'.obj y).used = true := hu
      rw [k5] at hu
      show off s' y ≤ lim s' ∨ (62 - (s'.version + 28) % 30 ≤ off s' y ∧ s'.listed y.1 = true ∧ s'.curr y.1 ≤ y.2)
      rw [off_eq (by rw [k5]) k1, lim_eq k2 k1, k1, k4, k6]
      rcases h.near y hly hu with hn | hn
      · exact .inl hn
      · right
        refine ⟨hn.1, hn.2.1, ?_⟩
        have h3 : s.curr y.1 ≤ y.2 := hn.2.2
        unfold upd
        split
        · rename_i eb
          rw [eb] at h3
          have : y.2 ≠ s.curr b := by
            intro e2
            apply hz
            rw [show (b, s.curr b) = y from (Prod.ext eb e2).symm]
            exact stale_dead (by have := hn.1; have this : 62 - (s.version + 28) % 30 ≤ off s y := this; omega)
          omega
        · exact h3
    · show s'.phase = .sweep → s'.version % 30 = 0
      rw [k2, k1]; exact h.swept
  | pop s held b hl hc =>
    constructor
    · exact h.fit
    · intro y hly hu
      rcases h.near y hly hu with hn | hn
      · exact .inl hn
      · right
        have hfit : y.2 < s.nslots y.1 := h.fit y hly hu
        have h3 : s.curr y.1 ≤ y.2 := hn.2.2
        have hne : y.1 ≠ b := by intro e; rw [e, hc] at h3; rw [e] at hfit; omega
        refine ⟨hn.1, ?_, ?_⟩
        · simp only [popBlock, upd, if_neg hne]; exact hn.2.1
        · simp only [popBlock, upd, if_neg hne]; exact h3
    · exact h.swept
  | allocLarge s held x merged kids hl hx hm hk =>
    have hoth : ∀ y : SlotId, Layout.large y.1 = false → (GC.allocLarge s x merged kids).obj y = s.obj y := by
      intro y hly
      have h1 : y ≠ x := by intro e; rw [e, hl] at hly; simp at hly
      have h2 : y ∉ merged := by intro e; rw [(hm y e).1] at hly; simp at hly
      simp [GC.allocLarge, St.setObj, upd, h1, h2]
    constructor
    · intro y hly hu
      have hu : ((GC.allocLarge s x merged kids).obj y).used = true := hu
      rw [hoth y hly] at hu; exact h.fit y hly hu
    · intro y hly hu
      have hu : ((GC.allocLarge s x merged kids).obj y).used = true := hu
      rw [hoth y hly] at hu
      have := h.near y hly hu
      show off (GC.allocLarge s x merged kids) y ≤ _ ∨ _
      rw [off_eq (hoth y hly) rfl]; exact this
    · exact h.swept
  | start s s' held held' roots hp hh hm => exact h.calm (start_calm hI hp hm).1
  | run s s' held hp hr =>
    cases hg : s.gray with
    | cons x rest => exact h.calm (round_calm hI hp hg hr).1
    | nil =>
      rw [run_nil hg] at hr
      split at hr
      · rename_i h30
        cases hr
        constructor
        · exact h.fit
        · intro y hly hu
          have hp : s.phase = .incr := hp
          have := h.near y hly hu
          have hlim : lim { s with phase := .sweep } = lim s := by
            unfold lim; simp [hp]
          show off s y ≤ lim { s with phase := .sweep } ∨ _
          rw [hlim]; exact this
        · exact fun _ => h30
      · rename_i h30
        cases hr
        exact h.flip hI (by rw [hp]; simp) hg (fun h' => absurd h' h30)
  | sweepSmall s held x hp hl hx =>
    have hu' : ∀ y, ((sweepSlot s x).obj y).used = true → (s.obj y).used = true ∧ (sweepSlot s x).obj y = s.obj y := by
      intro y hu
      simp only [sweepSlot, St.setObj, upd] at hu ⊢
      split at hu
      · simp at hu
      · rename_i e; simp [e, hu]
    constructor
    · intro y hly hu; exact h.fit y hly (hu' y hu).1
    · intro y hly hu
      have := h.near y hly (hu' y hu).1
      show off (sweepSlot s x) y ≤ _ ∨ _
      rw [off_eq (hu' y hu).2 rfl]; exact this
    · exact h.swept
  | sweepLarge s held x hp hl hx =>
    have hu' : ∀ y, ((sweepSlot s x).obj y).used = true → (s.obj y).used = true ∧ (sweepSlot s x).obj y = s.obj y := by
      intro y hu
      simp only [sweepSlot, St.setObj, upd] at hu ⊢
      split at hu
      · simp at hu
      · rename_i e; simp [e, hu]
    constructor
    · intro y hly hu; exact h.fit y hly (hu' y hu).1
    · intro y hly hu
      have := h.near y hly (hu' y hu).1
      show off (sweepSlot s x) y ≤ _ ∨ _
      rw [off_eq (hu' y hu).2 rfl]; exact this
    · exact h.swept
  | flip s held hp hd =>
    have hp : s.phase = .sweep := hp
    exact h.flip hI (by show s.phase ≠ .none; rw [hp]; simp) (hI.quiet (by show s.phase ≠ .incr; rw [hp]; simp))
      (fun _ => hd)

/-! ### unreachable objects -/

/-- a slot still in use after a flip has not changed -/
theorem flip_obj {s : St} {y} (h : ((gcFlip s).obj y).used = true) : (gcFlip s).obj y = s.obj y := by
  simp only [gcFlip] at h ⊢
  split at h
  · simp [Slot.zero] at h
  · rename_i hr; rw [if_neg hr]

/-- a set of objects the program has no way to get at -/
structure Garb (c : Config) (X : SlotId → Prop) : Prop where
  used : ∀ x, X x → (c.st.obj x).used = true
  held : ∀ x, X x → x ∉ c.held
  kids : ∀ a x, (c.st.obj a).used = true → ¬ X a → some x ∈ (c.st.obj a).kids → ¬ X x

theorem garb_init {c : Config} : Garb c (fun x => (c.st.obj x).used = true ∧ ¬ Reach c x) where
  used _ h := h.1
  held x h hh := h.2 (.held hh)
  kids a x hu hX hk := by
    intro ⟨_, hn⟩
    have : Reach c a := Classical.not_not.mp (fun h => hX ⟨hu, h⟩)
    exact hn (.field this hk)

/-- the steps that change neither allocation nor fields -/
theorem Garb.frame {c c' : Config} {X} {f : Freed} (h : Garb c X) (hf : ∀ x, ¬ f x)
    (hu : ∀ x, (c'.st.obj x).used = (c.st.obj x).used) (hk : ∀ x, (c'.st.obj x).kids = (c.st.obj x).kids)
    (hh : ∀ x ∈ c'.held, ¬ X x) : Garb c' (fun x => X x ∧ ¬ f x) where
  used x hx := by rw [hu]; exact h.used x hx.1
  held x hx hm := hh x hm hx.1
  kids a x hua hX hk' hx := by
    rw [hu] at hua; rw [hk] at hk'
    exact h.kids a x hua (fun hXa => hX ⟨hXa, hf a⟩) hk' hx.1

/-- freeing slots -/
theorem Garb.free {c c' : Config} {X} {f : Freed} (h : Garb c X)
    (hu : ∀ x, (c'.st.obj x).used = true → (c.st.obj x).used = true ∧ ¬ f x ∧ (c'.st.obj x).kids = (c.st.obj x).kids)
    (hf : ∀ x, ¬ f x → (c'.st.obj x).used = (c.st.obj x).used)
    (hh : c'.held = c.held) : Garb c' (fun x => X x ∧ ¬ f x) where
  used x hx := by rw [hf x hx.2]; exact h.used x hx.1
  held x hx hm := h.held x hx.1 (by rw [← hh]; exact hm)
  kids a x hua hX hk' hx := by
    obtain ⟨h1, h2, h3⟩ := hu a hua
    rw [h3] at hk'
    exact h.kids a x h1 (fun hXa => hX ⟨hXa, h2⟩) hk' hx.1

/-- building an object -/
theorem Garb.alloc {c c' : Config} {X} {f : Freed} (h : Garb c X) (x : SlotId) (kids : List (Option SlotId))
    (hself : (c'.st.obj x).kids = kids) (hfx : f x) (hk : ∀ y, some y ∈ kids → y ∈ c.held)
    (hoth : ∀ y, y ≠ x → (c'.st.obj y).used = true → (c.st.obj y).used = true ∧ ¬ f y ∧ (c'.st.obj y).kids = (c.st.obj y).kids)
    (hf : ∀ y, ¬ f y → (c'.st.obj y).used = (c.st.obj y).used)
    (hh : c'.held = x :: c.held) : Garb c' (fun x => X x ∧ ¬ f x) where
  used y hy := by rw [hf y hy.2]; exact h.used y hy.1
  held y hy hm := by
    rw [hh] at hm
    rcases List.mem_cons.mp hm with rfl | hm
    · exact hy.2 hfx
    · exact h.held y hy.1 hm
  kids a y hua hX hk' hy := by
    by_cases e : a = x
    · rw [e, hself] at hk'
      exact h.held y hy.1 (hk y hk')
    · obtain ⟨h1, h2, h3⟩ := hoth a e hua
      rw [h3] at hk'
      exact h.kids a y h1 (fun hXa => hX ⟨hXa, h2⟩) hk' hy.1

theorem garb_step {c c' : Config} {f : Freed} (hs : Step c f c') {G} (hI : Inv c.st c.held G) {X} (h : Garb c X) :
    Garb c' (fun x => X x ∧ ¬ f x) := by
  have hheld : ∀ x ∈ c.held, ¬ X x := fun x hm hX => h.held x hX hm
  cases hs with
  | forget s held held' hh => exact h.frame (fun _ => id) (fun _ => rfl) (fun _ => rfl) (fun x hx => hheld x (hh x hx))
  | load s held a i x ha hk =>
    refine h.frame (fun _ => id) (fun _ => rfl) (fun _ => rfl) ?_
    intro y hy
    rcases List.mem_cons.mp hy with rfl | hy
    · exact h.kids a y (hI.live a (hI.held a ha)).1 (hheld a ha) (List.mem_of_getElem? hk)
    · exact hheld y hy
  | store s s' held a i v ha hv hi hst =>
    obtain ⟨s'', e, -, hu, hk⟩ := store_spec hI a i v (hI.held a ha) (fun x hx => hI.held x (hv x hx))
    have hst : storeField s a i v = some s' := hst
    rw [e] at hst; cases hst
    constructor
    · intro x hx; show (s'.obj x).used = true; rw [hu]; exact h.used x hx.1
    · intro x hx; exact h.held x hx.1
    · intro b x hub hX hk' hx
      have hub : (s'.obj b).used = true := hub
      have hk' : some x ∈ (s'.obj b).kids := hk'
      rw [hu] at hub
      rw [hk] at hk'
      have hXb : ¬ X b := fun h' => hX ⟨h', id⟩
      split at hk'
      · rename_i e; subst e
        rcases List.mem_or_eq_of_mem_set hk' with h' | h'
        · exact h.kids b x hub hXb h' hx.1
        · exact hheld x (hv x h'.symm) hx.1
      · exact h.kids b x hub hXb hk' hx.1
  | globalSet s s' held x hx hp hm =>
    obtain ⟨s'', e, m, -⟩ := gcMark_spec s x none hI.base (by simp)
    rw [e] at hm; cases hm
    exact h.frame (fun _ => id) m.ev.used m.ev.kids hheld
  | getBlock s s' held b n hl hn hp he =>
    unfold GC.getBlock at he
    split at he
    · cases he; exact h.frame (fun _ => id) (fun _ => rfl) (fun _ => rfl) hheld
    · simp at he
  | allocTake s held b kids s' x hl hc hk ha =>
    unfold allocStep at ha
    simp only at ha
    split at ha
    · simp only [Prod.mk.injEq, Option.some.injEq] at ha
      obtain ⟨ha, rfl⟩ := ha
      have hoth : ∀ y, y ≠ (b, s.curr b) → s'.obj y = s.obj y := by
        intro y hy; subst ha
        simp only [St.setObj, upd, if_neg hy]; split <;> rfl
      refine h.alloc (b, s.curr b) kids ?_ rfl hk ?_ ?_ rfl
      · subst ha; simp [St.setObj, upd, newSlot]
      · intro y hy hu
        have hu : (s'.obj y).used = true := hu
        rw [hoth y hy] at hu
        exact ⟨hu, hy, by show (s'.obj y).kids = _; rw [hoth y hy]⟩
      · intro y hy; show (s'.obj y).used = _; rw [hoth y hy]
    · simp at ha
    · simp at ha
  | allocSkip s held b s' hl hc ha =>
    unfold allocStep at ha
    simp only at ha
    split at ha
    · simp at ha
    · simp only [Prod.mk.injEq, and_true] at ha
      subst ha; exact h.frame (fun _ => id) (fun _ => rfl) (fun _ => rfl) hheld
    · simp only [Prod.mk.injEq, and_true] at ha
      subst ha; exact h.frame (fun _ => id) (fun _ => rfl) (fun _ => rfl) hheld
  | pop => exact h.frame (fun _ => id) (fun _ => rfl) (fun _ => rfl) hheld
  | allocLarge s held x merged kids hl hx hm hk =>
    refine h.alloc x kids ?_ (.inl rfl) hk ?_ ?_ rfl
    · simp [GC.allocLarge, St.setObj, upd, newSlot]
    · intro y hy hu
      simp only [GC.allocLarge, St.setObj, upd, if_neg hy] at hu ⊢
      split at hu
      · simp at hu
      · rename_i hm; simp [hm, hu, hy]
    · intro y hy
      have h1 : y ≠ x := fun e => hy (.inl e)
      have h2 : y ∉ merged := fun e => hy (.inr e)
      simp [GC.allocLarge, St.setObj, upd, h1, h2]
  | start s s' held held' roots hp hh hm =>
    obtain ⟨s'', e, -, hu, hk⟩ := start_spec hI hp held' roots hh
    have hm : gcMarkRoot s roots = some s' := hm
    rw [e] at hm; cases hm
    exact h.frame (fun _ => id) hu hk (fun x hx => hheld x (hh x hx).1)
  | run s s' held hp hr =>
    cases hg : s.gray with
    | cons x rest =>
      obtain ⟨s'', e, -, -, hu, hk⟩ := process_spec hI hp x rest hg
      rw [e] at hr; cases hr
      exact h.frame (fun y hf => by have h2 := hf.2; rw [hu] at h2; rw [hf.1] at h2; simp at h2) hu hk hheld
    | nil =>
      rw [run_nil hg] at hr
      split at hr
      · cases hr
        exact h.frame (fun y hf => by rw [hf.1] at hf; simp at hf) (fun _ => rfl) (fun _ => rfl) hheld
      · cases hr
        refine h.free ?_ ?_ rfl
        · intro y hu
          have hz : ((gcFlip s).obj y).used = true := hu
          refine ⟨?_, fun hf => by have := hf.2; rw [hz] at this; simp at this, ?_⟩
          · simp only [gcFlip] at hz; split at hz
            · simp [Slot.zero] at hz
            · exact hz
          · exact congrArg Slot.kids (flip_obj hz)
        · intro y hf
          have hf : ¬ ((s.obj y).used = true ∧ ((gcFlip s).obj y).used = false) := hf
          show ((gcFlip s).obj y).used = (s.obj y).used
          cases h1 : (s.obj y).used with
          | true =>
            cases h2 : ((gcFlip s).obj y).used with
            | true => rfl
            | false => exact absurd ⟨h1, h2⟩ hf
          | false => simp only [gcFlip]; split <;> simp [Slot.zero, h1]
  | sweepSmall s held x hp hl hx =>
    refine h.free ?_ ?_ rfl
    · intro y hu
      simp only [sweepSlot, St.setObj, upd] at hu ⊢
      split at hu
      · simp at hu
      · rename_i e; simp [e, hu]
    · intro y hy
      simp [sweepSlot, St.setObj, upd, hy]
  | sweepLarge s held x hp hl hx =>
    refine h.free ?_ ?_ rfl
    · intro y hu
      simp only [sweepSlot, St.setObj, upd] at hu ⊢
      split at hu
      · simp at hu
      · rename_i e; simp [e, hu]
    · intro y hy
      simp [sweepSlot, St.setObj, upd, hy]
  | flip s held hp hd =>
    refine h.free ?_ ?_ rfl
    · intro y hu
      have hz : ((gcFlip s).obj y).used = true := hu
      refine ⟨?_, fun hf => by have := hf.2; rw [hz] at this; simp at this, ?_⟩
      · simp only [gcFlip] at hz; split at hz
        · simp [Slot.zero] at hz
        · exact hz
      · exact congrArg Slot.kids (flip_obj hz)
    · intro y hf
      have hf : ¬ ((s.obj y).used = true ∧ ((gcFlip s).obj y).used = false) := hf
      show ((gcFlip s).obj y).used = (s.obj y).used
      cases h1 : (s.obj y).used with
      | true =>
        cases h2 : ((gcFlip s).obj y).used with
        | true => rfl
        | false => exact absurd ⟨h1, h2⟩ hf
      | false => simp only [gcFlip]; split <;> simp [Slot.zero, h1]

/-! ### unreachable objects are not marked any more -/

/-- no unreachable object is gray or remembered -/
def Clean (s : St) (X : SlotId → Prop) : Prop := ∀ x, X x → x ∉ s.rset ∧ x ∉ s.gray

/-- the version changes only in a flip, which ends a cycle -/
def Timely (s s' : St) : Prop :=
  (s'.version = s.version ∧ (s'.phase = .none ↔ s.phase = .none)) ∨
  (s'.version = s.version + 2 ∧ s'.phase = .none ∧ s.phase ≠ .none ∧ s.gray = [])

theorem quiet_step {c c' : Config} {f : Freed} (hs : Step c f c') {G} (hI : Inv c.st c.held G) {X} (h : Garb c X)
    (hn : ¬ (c.st.phase = .none ∧ c'.st.phase = .incr)) :
    Timely c.st c'.st ∧ (Clean c.st X → ∀ y, X y → ¬ f y →
      y ∉ c'.st.rset ∧ y ∉ c'.st.gray ∧ (c'.st.obj y).version = (c.st.obj y).version) := by
  have same : ∀ s' : St, s'.version = c.st.version → s'.phase = c.st.phase → s'.rset = c.st.rset → s'.gray = c.st.gray →
      (∀ y, X y → ¬ f y → (s'.obj y).version = (c.st.obj y).version) →
      Timely c.st s' ∧ (Clean c.st X → ∀ y, X y → ¬ f y → y ∉ s'.rset ∧ y ∉ s'.gray ∧ (s'.obj y).version = (c.st.obj y).version) := by
    intro s' h1 h2 h3 h4 h5
    refine ⟨.inl ⟨h1, by rw [h2]⟩, fun hc y hy hf => ?_⟩
    rw [h3, h4]
    exact ⟨(hc y hy).1, (hc y hy).2, h5 y hy hf⟩
  have hheld : ∀ x ∈ c.held, ¬ X x := fun x hm hX => h.held x hX hm
  cases hs with
  | forget => exact same _ rfl rfl rfl rfl (fun _ _ _ => rfl)
  | load => exact same _ rfl rfl rfl rfl (fun _ _ _ => rfl)
  | store s s' held a i v ha hv hi hst =>
    obtain ⟨h1, h2, h3⟩ := store_frame hI (hI.held a ha) (fun x hx => hI.held x (hv x hx)) hst
    refine ⟨.inl ⟨h1.version, by show s'.phase = _ ↔ _; rw [h2]⟩, fun hc y hy _ => ?_⟩
    obtain ⟨k1, k2, k3⟩ := h3 y (fun e => hheld a ha (e ▸ hy))
      (fun hk => h.kids a y (hI.live a (hI.held a ha)).1 (hheld a ha) hk hy)
      (fun e => hheld y (hv y e) hy)
    exact ⟨fun hm => (hc y hy).1 (k3.mp hm), fun hm => (hc y hy).2 (k2.mp hm), k1⟩
  | globalSet s s' held x hx hp hm =>
    obtain ⟨s'', e, m, -⟩ := gcMark_spec s x none hI.base (by simp)
    rw [e] at hm; cases hm
    refine ⟨.inl ⟨m.ev.version, by show s'.phase = _ ↔ _; rw [m.ev.phase]⟩, fun hc y hy _ => ?_⟩
    obtain ⟨k1, k2⟩ := gcMark_frame e y (fun e => hheld x hx (e ▸ hy))
    have hr : s'.rset = s.rset := m.ev.rset
    exact ⟨by show y ∉ s'.rset; rw [hr]; exact (hc y hy).1, fun hm => (hc y hy).2 (k2.mp hm), by show (s'.obj y).version = _; rw [k1]⟩
  | getBlock s s' held b n hl hn' hp he =>
    unfold GC.getBlock at he
    split at he
    · cases he; exact same _ rfl rfl rfl rfl (fun _ _ _ => rfl)
    · simp at he
  | allocTake s held b kids s' x hl hc hk ha =>
    unfold allocStep at ha
    simp only at ha
    split at ha
    · simp only [Prod.mk.injEq, Option.some.injEq] at ha
      obtain ⟨ha, rfl⟩ := ha
      refine same s' ?_ ?_ ?_ ?_ ?_
      · subst ha; simp only [St.setObj]; split <;> rfl
      · subst ha; simp only [St.setObj]; split <;> rfl
      · subst ha; simp only [St.setObj]; split <;> rfl
      · subst ha; simp only [St.setObj]; split <;> rfl
      · intro y _ hy
        have hy : y ≠ (b, s.curr b) := hy
        subst ha
        simp only [St.setObj, upd, if_neg hy]; split <;> rfl
    · simp at ha
    · simp at ha
  | allocSkip s held b s' hl hc ha =>
    unfold allocStep at ha
    simp only at ha
    split at ha
    · simp at ha
    · simp only [Prod.mk.injEq, and_true] at ha
      subst ha; exact same _ rfl rfl rfl rfl (fun _ _ _ => rfl)
    · simp only [Prod.mk.injEq, and_true] at ha
      subst ha; exact same _ rfl rfl rfl rfl (fun _ _ _ => rfl)
  | pop => exact same _ rfl rfl rfl rfl (fun _ _ _ => rfl)
  | allocLarge s held x merged kids hl hx hm hk =>
    refine same _ rfl rfl rfl rfl ?_
    intro y _ hy
    have h1 : y ≠ x := fun e => hy (.inl e)
    have h2 : y ∉ merged := fun e => hy (.inr e)
    simp [GC.allocLarge, St.setObj, upd, h1, h2]
  | start s s' held held' roots hp hh hm =>
    exact absurd ⟨hp, (start_calm hI hp hm).2⟩ hn
  | run s s' held hp hr =>
    have hp : s.phase = .incr := hp
    cases hg : s.gray with
    | cons x rest =>
      obtain ⟨h1, h2, h3⟩ := round_calm hI hp hg hr
      obtain ⟨s'', e, -, hp', -⟩ := process_spec hI hp x rest hg
      rw [e] at hr; cases hr
      refine ⟨.inl ⟨h1.version, by show s'.phase = _ ↔ s.phase = _; rw [hp', hp]⟩, fun hc y hy _ => ?_⟩
      have hxg : x ∈ s.gray := by rw [hg]; simp
      have hXx : ¬ X x := fun hX => (hc x hX).2 hxg
      obtain ⟨k1, k2⟩ := h3 y (fun e => hXx (e ▸ hy))
        (fun hk => h.kids x y (hI.base.gray x hxg).1 hXx hk hy)
      exact ⟨by show y ∉ s'.rset; rw [h2]; exact (hc y hy).1, fun hm => (hc y hy).2 (k2.mp hm), k1⟩
    | nil =>
      rw [run_nil hg] at hr
      split at hr
      · cases hr
        refine ⟨.inl ⟨rfl, by show Phase.sweep = _ ↔ s.phase = _; rw [hp]; simp⟩, fun hc y hy _ => ?_⟩
        exact ⟨(hc y hy).1, (hc y hy).2, rfl⟩
      · cases hr
        refine ⟨.inr ⟨rfl, rfl, by show s.phase ≠ _; rw [hp]; simp, hg⟩, fun hc y hy hf => ?_⟩
        refine ⟨(hc y hy).1, (hc y hy).2, ?_⟩
        have hu := h.used y hy
        have hu : (s.obj y).used = true := hu
        have hu' : ((gcFlip s).obj y).used = true := by
          cases h' : ((gcFlip s).obj y).used with
          | true => rfl
          | false => exact absurd ⟨hu, h'⟩ hf
        show ((gcFlip s).obj y).version = (s.obj y).version
        rw [flip_obj hu']
  | sweepSmall s held x hp hl hx =>
    refine same _ rfl rfl rfl rfl ?_
    intro y _ hy; simp [sweepSlot, St.setObj, upd, hy]
  | sweepLarge s held x hp hl hx =>
    refine same _ rfl rfl rfl rfl ?_
    intro y _ hy; simp [sweepSlot, St.setObj, upd, hy]
  | flip s held hp hd =>
    have hp : s.phase = .sweep := hp
    refine ⟨.inr ⟨rfl, rfl, by show s.phase ≠ _; rw [hp]; simp, hI.quiet (by show s.phase ≠ _; rw [hp]; simp)⟩, fun hc y hy hf => ?_⟩
    refine ⟨(hc y hy).1, (hc y hy).2, ?_⟩
    have hu : (s.obj y).used = true := h.used y hy
    have hu' : ((gcFlip s).obj y).used = true := by
      cases h' : ((gcFlip s).obj y).used with
      | true => rfl
      | false => exact absurd ⟨hu, h'⟩ hf
    show ((gcFlip s).obj y).version = (s.obj y).version
    rw [flip_obj hu']

/-- the remembered set's pass does not mark unreachable objects if the unreachable entries are not old -/
theorem rset_quiet {X : SlotId → Prop} (l : List SlotId) {s s' : St} (kept) (hb : Base s)
    (hl : ∀ p ∈ l, (s.obj p).used = true ∧ (X p → off s p = 0))
    (hk : ∀ a x, (s.obj a).used = true → ¬ X a → some x ∈ (s.obj a).kids → ¬ X x)
    (h : gcRSetLoop s kept l = some s') :
    (∀ y, X y → (s'.obj y).version = (s.obj y).version ∧ (y ∈ s'.gray ↔ y ∈ s.gray)) ∧
    ∀ p ∈ s'.rset, p ∈ kept ∨ ¬ X p := by
  induction l generalizing s kept with
  | nil => cases h; exact ⟨fun _ _ => ⟨rfl, Iff.rfl⟩, fun p hp => .inl (by simpa using hp)⟩
  | cons p r ih =>
    unfold gcRSetLoop at h
    have hp := hl p (by simp)
    split at h
    · exact ih kept hb (fun q hq => hl q (by simp [hq])) hk h
    · rename_i hz
      have hXp : ¬ X p := by
        intro hX
        have := hp.2 hX
        have hc := vcmp_V s.version (s.obj p).version.ver (hb.ver p) (by unfold off at this; omega)
        unfold off at this
        omega
      obtain ⟨sa, ea, ma, -⟩ := markAll_spec none (s.obj p).kids s hb (by simp)
      rw [ea] at h
      simp only [Option.bind_eq_bind, Option.bind_some] at h
      have hfr : ∀ y, X y → sa.obj y = s.obj y ∧ (y ∈ sa.gray ↔ y ∈ s.gray) := fun y hy =>
        markAll_frame _ _ ea y (fun hk' => hk p y hp.1 hXp hk' hy)
      obtain ⟨h1, h2⟩ := ih (p :: kept) ma.base
        (fun q hq => ⟨by rw [ma.ev.used]; exact (hl q (by simp [hq])).1, fun hX => by
          rw [off_eq (hfr q hX).1 ma.ev.version]; exact (hl q (by simp [hq])).2 hX⟩)
        (fun a x hu hX hk' => hk a x (by rw [← ma.ev.used]; exact hu) hX (by rw [← ma.ev.kids]; exact hk')) h
      refine ⟨fun y hy => ⟨(h1 y hy).1.trans (by rw [(hfr y hy).1]), (h1 y hy).2.trans (hfr y hy).2⟩, ?_⟩
      intro q hq
      rcases h2 q hq with h' | h'
      · rcases List.mem_cons.mp h' with rfl | h'
        · exact .inr hXp
        · exact .inl h'
      · exact .inr h'

theorem quiet_start {s s' : St} {held G} (hI : Inv s held G) (hp : s.phase = .none) {X} (h : Garb ⟨s, held⟩ X)
    {roots : List (Option SlotId)} (hr : ∀ x, some x ∈ roots → ¬ X x) (hl : ∀ p ∈ s.rset, X p → off s p = 0)
    (hm : gcMarkRoot s roots = some s') :
    ∀ y, X y → y ∉ s'.rset ∧ y ∉ s'.gray ∧ (s'.obj y).version = (s.obj y).version := by
  have hg : s.gray = [] := hI.quiet (by rw [hp]; simp)
  have hs0 : ({ s with gray := [] } : St) = s := by cases s; simp at hg; subst hg; rfl
  unfold gcMarkRoot at hm
  simp only [Option.bind_eq_bind] at hm
  rw [hs0] at hm
  obtain ⟨s1, e1, m1, -⟩ := markAll_spec none roots s hI.base (by simp)
  rw [e1] at hm
  simp only [Option.bind_some] at hm
  have hfr : ∀ y, X y → s1.obj y = s.obj y ∧ (y ∈ s1.gray ↔ y ∈ s.gray) := fun y hy =>
    markAll_frame _ _ e1 y (fun hk => hr y hk hy)
  cases e2 : gcRSetLoop s1 [] s1.rset with
  | none => rw [e2] at hm; simp at hm
  | some s2 =>
    rw [e2] at hm
    simp only [Option.bind_some, Option.some.injEq] at hm
    have := rset_quiet (X := X) s1.rset [] m1.base (by
        intro p hp'
        rw [m1.ev.rset] at hp'
        exact ⟨by rw [m1.ev.used]; exact (hI.rs p hp').1, fun hX => by
          rw [off_eq (hfr p hX).1 m1.ev.version]; exact hl p hp' hX⟩)
      (fun a x hu hX hk => h.kids a x (by show (s.obj a).used = true; rw [← m1.ev.used]; exact hu) hX (by
        show _ ∈ (s.obj a).kids; rw [← m1.ev.kids]; exact hk)) e2
    intro y hy
    obtain ⟨k1, k2⟩ := this.1 y hy
    subst hm
    refine ⟨fun hm => ?_, fun hm => ?_, k1.trans (by rw [(hfr y hy).1])⟩
    · rcases this.2 y hm with h' | h'
      · simp at h'
      · exact h' hy
    · have := (hfr y hy).2.mp (k2.mp hm)
      rw [hg] at this; simp at this

end Cora.GC
