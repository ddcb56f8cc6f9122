import Verif.Spec.Heap
import Verif.Props.GC
/-
What the collector does is not seen through `Shows`.
-/
open Spec.Lang Spec.Compiled
namespace Cora.Compile
open GC
variable {W : Type}

theorem kid_ptr {w : Word} {x : SlotId} : w.kid = some x ↔ w = .ptr x := by
  cases w <;> simp [Word.kid]

theorem kids_mem {c : Cell} {x : SlotId} : some x ∈ c.kids ↔ Word.ptr x ∈ c.words := by
  simp only [Cell.kids, List.mem_map, kid_ptr]
  exact ⟨fun ⟨w, h, e⟩ => e ▸ h, fun h => ⟨_, h, rfl⟩⟩

variable [Layout]

/-- what is reached through a word -/
def ReachW (c : Config) (w : Word) : Prop := ∀ p, w.kid = some p → Reach c p

/-- objects that are reached are the same, so values are -/
theorem _root_.Spec.Compiled.Shows.cong {gc : St} {cell cell' : SlotId → Cell} {held : List SlotId}
    (hk : ∀ x, Reach ⟨gc, held⟩ x → (gc.obj x).kids = (cell x).kids) (hc : ∀ x, Reach ⟨gc, held⟩ x → cell' x = cell x)
    {w : Word} {v : MVal} (h : Shows cell w v) : ReachW ⟨gc, held⟩ w → Shows cell' w v := by
  have step : ∀ x, Reach ⟨gc, held⟩ x → ∀ w ∈ (cell x).words, ReachW ⟨gc, held⟩ w := by
    intro x hx w hw p hp
    rw [kid_ptr] at hp
    subst hp
    exact .field hx (by simp only; rw [hk x hx]; exact kids_mem.mpr hw)
  induction h with
  | int n => exact fun _ => .int n
  | bool b => exact fun _ => .bool b
  | nil => exact fun _ => .nil
  | sym x => exact fun _ => .sym x
  | str e => intro hr; exact .str (by rw [hc _ (hr _ rfl), e])
  | cons e _ _ ih1 ih2 =>
    intro hr
    have hs := step _ (hr _ rfl)
    rw [e] at hs
    exact .cons (by rw [hc _ (hr _ rfl), e]) (ih1 (hs _ (by simp [Cell.words]))) (ih2 (hs _ (by simp [Cell.words])))
  | clo e hl _ ih =>
    intro hr
    have hs := step _ (hr _ rfl)
    rw [e] at hs
    exact .clo (by rw [hc _ (hr _ rfl), e]) hl fun i w v h1 h2 => ih i w v h1 h2 (hs _ (List.mem_of_getElem? h1))
  | prim hp e => intro hr; exact .prim hp (by rw [hc _ (hr _ rfl), e])
  | native e => intro hr; exact .native (by rw [hc _ (hr _ rfl), e])
  | pap ha e _ hl _ ih1 ih2 =>
    intro hr
    have hs := step _ (hr _ rfl)
    rw [e] at hs
    exact .pap ha (by rw [hc _ (hr _ rfl), e]) (ih1 (hs _ (by simp [Cell.words]))) hl fun i w v h1 h2 =>
      ih2 i w v h1 h2 (hs _ (by simp [Cell.words, List.mem_of_getElem? h1]))

/-- the word is the value, and is held -/
def Owns (cell : SlotId → Cell) (held : List SlotId) (w : Word) (v : MVal) : Prop := Shows cell w v ∧ Holds held w

theorem _root_.Spec.Compiled.Holds.mono {held held' : List SlotId} (h : ∀ x ∈ held, x ∈ held') {w : Word} (hw : Holds held w) : Holds held' w :=
  fun p hp => h p (hw p hp)

theorem _root_.Spec.Compiled.Holds.reach {gc : St} {held : List SlotId} {w : Word} (h : Holds held w) : ReachW ⟨gc, held⟩ w := fun p hp => .held (h p hp)

/-- from one state of the heap to a later one in the same block: nothing that is held is lost -/
structure Onward (hp : Heap W) (held : List SlotId) (hp' : Heap W) (held' : List SlotId) : Prop where
  coll : HeapOk hp' held'
  more : ∀ x ∈ held, x ∈ held'
  keep : ∀ w v, Shows hp.cell w v → Holds held w → Shows hp'.cell w v

theorem Onward.refl {hp : Heap W} {held : List SlotId} (h : HeapOk hp held) : Onward hp held hp held := ⟨h, fun _ h => h, fun _ _ h _ => h⟩

theorem Onward.trans {hp1 hp2 hp3 : Heap W} {held1 held2 held3 : List SlotId} (h1 : Onward hp1 held1 hp2 held2) (h2 : Onward hp2 held2 hp3 held3) :
    Onward hp1 held1 hp3 held3 :=
  ⟨h2.coll, fun x hx => h2.more x (h1.more x hx), fun w v hs hh => h2.keep w v (h1.keep w v hs hh) (hh.mono h1.more)⟩

theorem Onward.has {hp hp' : Heap W} {held held' : List SlotId} (h : Onward hp held hp' held') {w : Word} {v : MVal} (hw : Owns hp.cell held w v) :
    Owns hp'.cell held' w v := ⟨h.keep w v hw.1 hw.2, hw.2.mono h.more⟩

theorem collect_step {s s' : St} {f : Freed} (h : Collect s f s') (held : List SlotId) : Step ⟨s, held⟩ f ⟨s', held⟩ := by
  cases h with
  | getBlock b n h1 h2 h3 h4 => exact .getBlock _ _ _ b n h1 h2 h3 h4
  | skip b h1 h2 h3 => exact .allocSkip _ _ b _ h1 h2 h3
  | pop b h1 h2 => exact .pop _ _ b h1 h2
  | run h1 h2 => exact .run _ _ _ h1 h2
  | sweepSmall x h1 h2 h3 => exact .sweepSmall _ _ x h1 h2 h3
  | sweepLarge x h1 h2 h3 => exact .sweepLarge _ _ x h1 h2 h3
  | flip h1 h2 => exact .flip _ _ h1 h2

/-- fields of objects that are reached are kept -/
theorem collect_kids {s s' : St} {f : Freed} (hc : Collect s f s') {held : List SlotId} (h : Run ⟨s, held⟩) :
    ∀ x, Reach ⟨s, held⟩ x → (s'.obj x).kids = (s.obj x).kids := by
  obtain ⟨G, hG⟩ := run_inv h
  have hr := fun x hx => reach_live (c := ⟨s, held⟩) hG (x := x) hx
  cases hc with
  | getBlock b n hl hn hp he =>
    unfold GC.getBlock at he
    split at he
    · cases he; exact fun _ _ => rfl
    · simp at he
  | skip b hl hc ha =>
    unfold allocStep at ha
    simp only at ha
    split at ha
    · simp at ha
    · simp only [Prod.mk.injEq, and_true] at ha
      subst ha; exact fun _ _ => rfl
    · simp only [Prod.mk.injEq, and_true] at ha
      subst ha; exact fun _ _ => rfl
  | pop => exact fun _ _ => rfl
  | run hp hr' =>
    cases hg : s.gray with
    | cons x rest =>
      obtain ⟨s'', e, -, -, -, hk⟩ := process_spec hG hp x rest hg
      rw [e] at hr'; cases hr'
      exact fun y _ => hk y
    | nil =>
      rw [run_nil hg] at hr'
      split at hr'
      · cases hr'; exact fun _ _ => rfl
      · cases hr'
        have := flip_spec (to_sweep hG hp hg) rfl
        intro y hy
        have e := this.2 y (hr y hy)
        rw [show gcFlip s = gcFlip { s with phase := .sweep } from rfl, e]
  | sweepSmall x hp hl hx =>
    intro y hy
    simp only [sweepSlot, St.setObj, upd]
    split
    · rename_i e; subst e; rfl
    · rfl
  | sweepLarge x hp hl hx =>
    intro y hy
    simp only [sweepSlot, St.setObj, upd]
    split
    · rename_i e; subst e; rfl
    · rfl
  | flip hp _ =>
    intro y hy
    rw [(flip_spec hG hp).2 y (hr y hy)]

/-- if nothing new is held and fields are the same, nothing new is reached -/
theorem reach_sub {s s' : St} {held held' : List SlotId} (hh : ∀ x ∈ held', x ∈ held)
    (hk : ∀ x, Reach ⟨s, held⟩ x → (s'.obj x).kids = (s.obj x).kids) {x : SlotId} (h : Reach ⟨s', held'⟩ x) : Reach ⟨s, held⟩ x := by
  induction h with
  | held h => exact .held (hh _ h)
  | @field a x _ h ih =>
    simp only at h
    rw [hk _ ih] at h
    exact .field ih h

/-- steps that only keep objects -/
theorem later_of {hp : Heap W} {held : List SlotId} (hcol : HeapOk hp held) {f : Freed} {gc' : St} {held' : List SlotId} {cell' : SlotId → Cell}
    (hs : Step ⟨hp.gc, held⟩ f ⟨gc', held'⟩) (hh : ∀ x ∈ held', x ∈ held)
    (hk : ∀ x, Reach ⟨hp.gc, held⟩ x → (gc'.obj x).kids = (hp.gc.obj x).kids) (hc : ∀ y, ¬ f y → cell' y = hp.cell y) :
    Run ⟨gc', held'⟩ ∧ (∀ x, Reach ⟨gc', held'⟩ x → (gc'.obj x).kids = (cell' x).kids) ∧
      ∀ w v, Shows hp.cell w v → Holds held w → Shows cell' w v := by
  have hcell : ∀ x, Reach ⟨hp.gc, held⟩ x → cell' x = hp.cell x := fun x hx => hc x (C31_never_frees_reachable hcol.run hs x hx)
  refine ⟨.step hcol.run hs, fun x hx => ?_, fun w v hw hwh => hw.cong hcol.kids hcell hwh.reach⟩
  have hx' := reach_sub hh hk hx
  rw [hk x hx', hcell x hx', hcol.kids x hx']

theorem work_later {hp : Heap W} {held : List SlotId} (hcol : HeapOk hp held) {gc' : St} {cell' : SlotId → Cell}
    (hw : Work hp.gc hp.cell gc' cell') : Onward hp held { hp with gc := gc', cell := cell' } held := by
  induction hw with
  | none => exact .refl hcol
  | more hw1 hcl hcell h1 =>
    obtain ⟨a1, a2, a3⟩ := later_of h1.coll (collect_step hcl held) (fun _ h => h) (collect_kids hcl h1.coll.run) hcell
    refine h1.trans ⟨⟨a1, a2, hcol.globals⟩, fun _ h => h, a3⟩

/-- a new object -/
theorem new_later {hp hp' : Heap W} {held : List SlotId} (hcol : HeapOk hp held) {c : Cell} {x : SlotId} (hn : NewObj hp c hp' x)
    (hc : ∀ w ∈ c.words, Holds held w) :
    ∃ held', Onward hp held hp' held' ∧ hp'.cell x = c ∧ x ∈ held' ∧ hp'.globals = hp.globals ∧ hp'.rest = hp.rest := by
  have hkids : ∀ y, some y ∈ c.kids → y ∈ held := fun y hy => hc _ (kids_mem.mp hy) y rfl
  refine ⟨x :: held, ?_⟩
  -- what follows from the step of the collector
  have key : ∀ (hp1 : Heap W) (gc2 : St) (cell2 : SlotId → Cell) (f : Freed), Onward hp held hp1 held →
      Step ⟨hp1.gc, held⟩ f ⟨gc2, x :: held⟩ → f x → (∀ y, ¬ f y → cell2 y = hp1.cell y) → cell2 x = c → (gc2.obj x).kids = c.kids →
      (∀ y, ¬ f y → (gc2.obj y).kids = (hp1.gc.obj y).kids) → hp1.globals = hp.globals →
      Onward hp held { hp with gc := gc2, cell := cell2 } (x :: held) := by
    intro hp1 gc2 cell2 f h1 hs hfx hcell hx hkx hko hg
    have hcol1 := h1.coll
    have hfree := fun y hy => C31_never_frees_reachable hcol1.run hs y hy
    have hreach : ∀ y, Reach ⟨gc2, x :: held⟩ y → y = x ∨ Reach ⟨hp1.gc, held⟩ y := by
      intro y hy
      induction hy with
      | held h =>
        rcases List.mem_cons.mp h with rfl | h
        · exact .inl rfl
        · exact .inr (.held h)
      | @field a z _ h ih =>
        simp only at h
        rcases ih with rfl | ih
        · rw [hkx] at h; exact .inr (.held (hkids _ h))
        · rw [hko a (hfree a ih)] at h; exact .inr (.field ih h)
    refine h1.trans ⟨⟨.step hcol1.run hs, fun y hy => ?_, fun q hq => ?_⟩, fun y hy => by simp [hy], fun w v hw hwh => ?_⟩
    · rcases hreach y hy with rfl | hy
      · simp only [hx, hkx]
      · simp only [hcell y (hfree y hy), hko y (hfree y hy), hcol1.kids y hy]
    · exact (hcol1.globals q (by rw [hg]; exact hq)).mono fun y hy => by simp [hy]
    · exact hw.cong hcol1.kids (fun y hy => hcell y (hfree y hy)) hwh.reach
  cases hn with
  | @small gc1 cell1 b gc2 x hw hl hcur ha =>
    have h1 := work_later hcol hw
    refine ⟨key _ gc2 _ _ h1 (.allocTake _ _ b _ _ _ hl hcur hkids ha) rfl (fun y hy => ?_) ?_ ?_ (fun y hy => ?_) rfl, ?_, by simp, rfl, rfl⟩
    · simp only [upd, if_neg hy]
    · simp [upd]
    · unfold allocStep at ha
      simp only at ha
      split at ha
      · simp only [Prod.mk.injEq, Option.some.injEq] at ha
        obtain ⟨rfl, rfl⟩ := ha
        simp [St.setObj, upd, newSlot]
      · simp at ha
      · simp at ha
    · unfold allocStep at ha
      simp only at ha
      split at ha
      · simp only [Prod.mk.injEq, Option.some.injEq] at ha
        obtain ⟨rfl, rfl⟩ := ha
        simp only [St.setObj, upd, if_neg hy]
        split <;> rfl
      · simp at ha
      · simp at ha
    · simp [upd]
  | @large gc1 cell1 x merged cell2 hw hl hu hm hcell hx =>
    have h1 := work_later hcol hw
    refine ⟨key _ _ _ _ h1 (.allocLarge _ _ _ merged _ hl hu hm hkids) (.inl rfl) (fun y hy => ?_) hx ?_ (fun y hy => ?_) rfl, hx, by simp, rfl, rfl⟩
    · exact hcell y (fun e => hy (.inl e)) (fun e => hy (.inr e))
    · simp [allocLarge, St.setObj, upd, newSlot]
    · have h1 : y ≠ x := fun e => hy (.inl e)
      have h2 : y ∉ merged := fun e => hy (.inr e)
      simp only [allocLarge, St.setObj, upd, if_neg h1, if_neg h2]

theorem hfind_mem {x : Spec.Lang.Sym} {w : Word} : ∀ {g : List (Spec.Lang.Sym × Word)}, hfind x g = some w → (x, w) ∈ g
  | (y, u) :: r, h => by
    simp only [hfind] at h
    split at h
    · rename_i e; cases h; subst e; simp
    · exact List.mem_cons_of_mem _ (hfind_mem h)

theorem hassign_mem {x : Spec.Lang.Sym} {w : Word} : ∀ {g : List (Spec.Lang.Sym × Word)} {q}, q ∈ hassign x w g → q ∈ g ∨ q.2 = w
  | [], q, h => by simp only [hassign, List.mem_singleton] at h; subst h; exact .inr rfl
  | (y, u) :: r, q, h => by
    simp only [hassign] at h
    split at h
    · rcases List.mem_cons.mp h with rfl | h
      · exact .inr rfl
      · exact .inl (by simp [h])
    · rcases List.mem_cons.mp h with rfl | h
      · exact .inl (by simp)
      · rcases hassign_mem h with h | h
        · exact .inl (by simp [h])
        · exact .inr h

theorem hfind_hassign {x y : Spec.Lang.Sym} {w : Word} : ∀ {g : List (Spec.Lang.Sym × Word)},
    hfind y (hassign x w g) = if y = x then some w else hfind y g
  | [] => by
    simp only [hassign, hfind]
    by_cases h : x = y
    · rw [if_pos h, if_pos h.symm]
    · rw [if_neg h, if_neg (fun e => h e.symm)]
  | (z, u) :: r => by
    simp only [hassign]
    by_cases hz : z = x
    · subst hz
      simp only [if_true, hfind]
      by_cases h : z = y
      · rw [if_pos h, if_pos h.symm]
      · rw [if_neg h, if_neg (fun e => h e.symm), if_neg h]
    · rw [if_neg hz]
      simp only [hfind]
      by_cases h : z = y
      · subst h
        rw [if_pos rfl, if_neg hz, if_pos rfl]
      · rw [if_neg h, if_neg h, hfind_hassign]

/-- setting a global variable -/
theorem setGlobal_later {hp hp' : Heap W} {held : List SlotId} (hcol : HeapOk hp held) {x : Spec.Lang.Sym} {w : Word} (hw : Holds held w)
    (h : hp.setGlobal x w = some hp') : Onward hp held hp' held ∧ hp'.globals = hassign x w hp.globals ∧ hp'.rest = hp.rest ∧ hp'.cell = hp.cell := by
  simp only [Heap.setGlobal, Option.map_eq_some_iff] at h
  obtain ⟨gc, hgc, rfl⟩ := h
  have hglob : ∀ q ∈ hassign x w hp.globals, Holds held q.2 := by
    intro q hq
    rcases hassign_mem hq with hq | hq
    · exact hcol.globals q hq
    · rw [hq]; exact hw
  refine ⟨?_, rfl, rfl, rfl⟩
  split at hgc
  · rename_i p hph hf
    have hin := hcol.globals _ (hfind_mem hf) p rfl
    obtain ⟨G, hG⟩ := run_inv hcol.run
    have hstep : Step ⟨hp.gc, held⟩ (fun _ => False) ⟨gc, held⟩ := .globalSet _ _ _ p hin hph hgc
    obtain ⟨s'', e, m, -⟩ := gcMark_spec hp.gc p none hG.base (by simp)
    rw [e] at hgc; cases hgc
    obtain ⟨a1, a2, a3⟩ := later_of hcol hstep (fun _ h => h) (fun y _ => m.ev.kids y) (cell' := hp.cell) fun _ _ => rfl
    exact ⟨⟨a1, a2, hglob⟩, fun _ h => h, a3⟩
  · cases hgc
    exact ⟨⟨hcol.run, hcol.kids, hglob⟩, fun _ h => h, fun _ _ h _ => h⟩

/-- the words a program reads from an object that it holds are held -/
theorem load_later {hp : Heap W} {held : List SlotId} (hcol : HeapOk hp held) {x : SlotId} (hx : x ∈ held) {w : Word} (hw : w ∈ (hp.cell x).words) :
    ∃ held', Onward hp held hp held' ∧ Holds held' w := by
  cases hk : w.kid with
  | none => exact ⟨held, .refl hcol, fun p hp => by rw [hk] at hp; simp at hp⟩
  | some y =>
    rw [kid_ptr] at hk
    subst hk
    have hm : some y ∈ (hp.gc.obj x).kids := by rw [hcol.kids x (.held hx)]; exact kids_mem.mpr hw
    obtain ⟨i, hi⟩ := List.getElem?_of_mem hm
    have hs : Step ⟨hp.gc, held⟩ (fun _ => False) ⟨hp.gc, y :: held⟩ := .load _ _ x i y hx hi
    refine ⟨y :: held, ⟨⟨.step hcol.run hs, fun z hz => ?_, fun q hq => (hcol.globals q hq).mono fun z hz => by simp [hz]⟩,
      fun z hz => by simp [hz], fun _ _ h _ => h⟩, fun p hp => by cases hp; simp⟩
    refine hcol.kids z ?_
    induction hz with
    | held h =>
      rcases List.mem_cons.mp h with rfl | h
      · exact .field (.held hx) hm
      · exact .held h
    | field _ h ih => exact .field ih h

/-- C code that is no compiled code -/
theorem acts_later {ws ws' : List Word} {hp hp' : Heap W} (h : Acts ws hp ws' hp') : ∀ {held : List SlotId}, HeapOk hp held →
    (∀ w ∈ ws, Holds held w) → ∃ held', Onward hp held hp' held' ∧ ∀ w ∈ ws', Holds held' w := by
  induction h with
  | done ws hp => intro held hcol hw; exact ⟨held, .refl hcol, hw⟩
  | word hk _ ih =>
    intro held hcol hw
    refine ih hcol fun w h => ?_
    rcases List.mem_cons.mp h with rfl | h
    · intro p hp; rw [hk] at hp; simp at hp
    · exact hw w h
  | load hx hm _ ih =>
    intro held hcol hw
    obtain ⟨held1, h1, h2⟩ := load_later hcol (hw _ hx _ rfl) hm
    obtain ⟨held2, h3, h4⟩ := ih h1.coll fun w h => by
      rcases List.mem_cons.mp h with rfl | h
      · exact h2
      · exact (hw w h).mono h1.more
    exact ⟨held2, h1.trans h3, h4⟩
  | get hf _ ih =>
    intro held hcol hw
    refine ih hcol fun w h => ?_
    rcases List.mem_cons.mp h with rfl | h
    · exact hcol.globals _ (hfind_mem hf)
    · exact hw w h
  | set hm hs _ ih =>
    intro held hcol hw
    obtain ⟨h1, -⟩ := setGlobal_later hcol (hw _ hm) hs
    obtain ⟨held2, h3, h4⟩ := ih h1.coll hw
    exact ⟨held2, h1.trans h3, h4⟩
  | new hm hn _ ih =>
    intro held hcol hw
    obtain ⟨held1, h1, -, hx, -⟩ := new_later hcol hn fun w h => hw _ (hm w h)
    obtain ⟨held2, h3, h4⟩ := ih h1.coll fun w h => by
      rcases List.mem_cons.mp h with rfl | h
      · intro p hp; cases hp; exact hx
      · exact (hw w h).mono h1.more
    exact ⟨held2, h1.trans h3, h4⟩
  | @rest ws hp r _ _ _ ih =>
    intro held hcol hw
    have h0 : Onward hp held { hp with rest := r } held := ⟨⟨hcol.run, hcol.kids, hcol.globals⟩, fun _ h => h, fun _ _ h _ => h⟩
    obtain ⟨held2, h3, h4⟩ := ih h0.coll hw
    exact ⟨held2, h0.trans h3, h4⟩

/-- a cycle of the collector starts -/
theorem start_later {hp : Heap W} {held : List SlotId} (hcol : HeapOk hp held) {roots : List (Option SlotId)} {gc' : St}
    (hp0 : hp.gc.phase = .none) (hm : gcMarkRoot hp.gc roots = some gc') {held' : List SlotId} (hh : ∀ x ∈ held', x ∈ held ∧ some x ∈ roots)
    (hg : ∀ q ∈ hp.globals, Holds held' q.2) :
    HeapOk { hp with gc := gc' } held' := by
  obtain ⟨G, hG⟩ := run_inv hcol.run
  have hs : Step ⟨hp.gc, held⟩ (fun _ => False) ⟨gc', held'⟩ := .start _ _ _ _ roots hp0 hh hm
  obtain ⟨s'', e, -, -, hk⟩ := start_spec hG hp0 held' roots hh
  rw [e] at hm; cases hm
  obtain ⟨a1, a2, _⟩ := later_of hcol hs (fun x hx => (hh x hx).1) (fun x _ => hk x) (cell' := hp.cell) fun _ _ => rfl
  exact ⟨a1, a2, hg⟩

end Cora.Compile
