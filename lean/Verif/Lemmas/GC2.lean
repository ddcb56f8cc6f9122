import Verif.Lemmas.GC
/- Preservation of the collector's invariant by every step. -/
namespace Cora.GC
variable [Layout]
set_option linter.unusedSectionVars false

/-- the bookkeeping of blocks may change as long as this stays true -/
theorem Inv.congr {s s' : St} {held G} (h : Inv s held G) (h1 : s'.obj = s.obj) (h2 : s'.version = s.version)
    (h3 : s'.gray = s.gray) (h4 : s'.phase = s.phase) (h5 : s'.rset = s.rset)
    (ht : ∀ b, s.touch b = true → s'.touch b = true) (hn : ∀ b, s.nslots b ≠ 0 → s'.nslots b ≠ 0)
    (hf : ∀ b, Layout.large b = false → s'.nslots b = 0 → s'.touch b = false)
    (hl : ∀ b, s'.listed b = true → Layout.large b = false ∧ s'.nslots b ≠ 0) : Inv s' held G := by
  have ho : ∀ x, off s' x = off s x := fun x => off_eq (by rw [h1]) h2
  have hb := h.base
  constructor
  · constructor
    · constructor
      · rw [h2]; exact hb.even
      · rw [h1]; exact hb.ver
      · rw [h1]; exact hb.gen
      · rw [h3]; exact hb.nodup
      · rw [h1, h3]; exact hb.odd
      · intro x; rw [h3, h1, ho, h2]; exact hb.gray x
      · intro x hx htt; rw [h1, ho]
        refine hb.touch x hx ?_
        cases e : s.touch x.1 with
        | false => rfl
        | true => rw [ht _ e] at htt; simp at htt
      · exact hf
      · intro x; rw [h1]; intro hu
        rcases hb.placed x hu with h | h
        · exact .inl h
        · exact .inr (hn _ h)
      · exact hl
    · exact h.held
    · intro a ha; rw [h1, ho, lim_eq h4 h2]; exact h.live a ha
    · intro p; rw [h5, h1, ho, lim_eq h4 h2, h4]; exact h.rs p
    · rw [h4, h3]; exact h.quiet
    · intro hp a ha; rw [ho]; intro h0; rw [h4] at hp
      exact (h.chain hp a ha h0).congr h1 h2 (by rw [h3]; exact fun _ h => h)
    · intro hp a ha; rw [ho]; rw [h4] at hp; exact h.black hp a ha
  · intro a b ha; rw [h1]; intro hk
    have := h.old a b ha hk
    unfold genOK at *
    rw [ho, ho, h5, h4]; exact this

/-- a slot that no one may use -/
def Dead (s : St) (x : SlotId) : Prop := ¬ ((s.obj x).used = true ∧ off s x < 32)

theorem dead_of_inuse {s : St} (hb : Base s) {x} (h : inuse s (s.obj x) = 0) : Dead s x :=
  fun ⟨hu, ho⟩ => inuse_pos s x (hb.ver x) hu ho h

theorem Core.not_dead {s : St} {held G} (h : Core s held G) {x} (hx : G x) : ¬ Dead s x := by
  intro hd; have := h.live x hx; have := h.live24 hx; exact hd ⟨(h.live x hx).1, by omega⟩

theorem GW.not_dead {s : St} (hb : Base s) {x} (h : GW s x) : ¬ Dead s x := by
  intro hd
  cases h with
  | gray h => have := hb.gray x h; exact hd ⟨this.1, by omega⟩
  | step _ _ hu ho => exact hd ⟨hu, by omega⟩

/-- dead slots may be marked unused -/
theorem Inv.kill {s s' : St} {held G} (h : Inv s held G) (D : SlotId → Prop) [DecidablePred D] (hD : ∀ x, D x → Dead s x)
    (hs : s' = { s with obj := fun y => if D y then { s.obj y with used := false } else s.obj y }) :
    Inv s' held G := by
  have hobj : ∀ y, s'.obj y = if D y then { s.obj y with used := false } else s.obj y := by intro y; subst hs; rfl
  have hnot : ∀ y, ¬ Dead s y → s'.obj y = s.obj y := fun y hy => by rw [hobj, if_neg (fun h => hy (hD y h))]
  have hver : ∀ y, (s'.obj y).version = (s.obj y).version := by intro y; rw [hobj]; split <;> rfl
  have hu' : ∀ y, (s'.obj y).used = true → (s.obj y).used = true := by
    intro y; rw [hobj]; split <;> simp
  have ho : ∀ x, off s' x = off s x := by intro x; unfold off; rw [hver]; subst hs; rfl
  have e1 : s'.version = s.version := by subst hs; rfl
  have e2 : s'.gray = s.gray := by subst hs; rfl
  have e3 : s'.touch = s.touch := by subst hs; rfl
  have e4 : s'.nslots = s.nslots := by subst hs; rfl
  have e5 : s'.listed = s.listed := by subst hs; rfl
  have e6 : s'.phase = s.phase := by subst hs; rfl
  have e7 : s'.rset = s.rset := by subst hs; rfl
  have hb := h.base
  have hGd : ∀ x, G x → s'.obj x = s.obj x := fun x hx => hnot x (h.not_dead hx)
  constructor
  · constructor
    · constructor
      · subst hs; exact hb.even
      · intro x; rw [hver]; exact hb.ver x
      · intro x; rw [hver]; exact hb.gen x
      · rw [e2]; exact hb.nodup
      · intro x; rw [hver, e2]; exact hb.odd x
      · intro x hx; rw [e2] at hx; rw [ho, e1]
        have := hb.gray x hx
        rw [hnot x (fun hd => hd ⟨this.1, by omega⟩)]; exact this
      · intro x hx ht hu; rw [ho]; rw [e3] at ht; exact hb.touch x hx ht (hu' x hu)
      · rw [e3, e4]; exact hb.free
      · intro x hu; rw [e4]; exact hb.placed x (hu' x hu)
      · rw [e5, e4]; exact hb.listed
    · exact h.held
    · intro a ha; rw [ho, hGd a ha, lim_eq e6 e1]; exact h.live a ha
    · intro p hp; rw [e7] at hp; have := h.rs p hp
      have h24 := h.rs24 hp
      rw [ho, lim_eq e6 e1, e6, hnot p (fun hd => hd ⟨this.1, by omega⟩)]; exact this
    · rw [e6, e2]; exact h.quiet
    · intro hp a ha h0; rw [ho] at h0; rw [e6] at hp
      have := h.chain hp a ha h0
      clear ha h0
      induction this with
      | gray h => exact .gray (by rw [e2]; exact h)
      | @step w b hw hk hu ho' ih =>
        exact .step ih (by rw [hnot w (hw.not_dead hb)]; exact hk)
          (by rw [hnot b (fun hd => hd ⟨hu, by omega⟩)]; exact hu) (by rw [ho]; exact ho')
    · intro hp a ha; rw [e6] at hp; rw [ho]; exact h.black hp a ha
  · intro a b ha hk
    rw [hGd a ha] at hk
    have := h.old a b ha hk
    unfold genOK at *
    rw [ho, ho, e7, e6]; exact this

/-- a dead slot may be reused -/
theorem Inv.alloc {s s' : St} {held G} (h : Inv s held G) (x : SlotId) (kids : List (Option SlotId))
    (hd : Dead s x) (hk : ∀ y, some y ∈ kids → G y)
    (h1 : s'.obj = upd s.obj x (newSlot s kids)) (h2 : s'.version = s.version)
    (h3 : s'.gray = s.gray) (h4 : s'.phase = s.phase) (h5 : s'.rset = s.rset)
    (h6 : s'.nslots = s.nslots) (h7 : s'.listed = s.listed)
    (hp : Layout.large x.1 = true ∨ s.nslots x.1 ≠ 0)
    (ht : ∀ b, s.touch b = true → s'.touch b = true)
    (ht2 : ∀ b, s'.touch b = true → s.touch b = true ∨ s.nslots b ≠ 0 ∨ Layout.large b = true)
    (ht3 : s.phase ≠ .none → Layout.large x.1 = false → s'.touch x.1 = true) :
    Inv s' (x :: held) (fun y => y = x ∨ G y) := by
  have hself : s'.obj x = newSlot s kids := by rw [h1]; simp [upd]
  have hoth : ∀ y, y ≠ x → s'.obj y = s.obj y := fun y hy => by rw [h1]; simp [upd, hy]
  have hb := h.base
  have hoffx : off s' x = if s.phase = .none then 0 else 2 := by
    unfold off offV; rw [hself, h2]; unfold newSlot
    by_cases hpn : s.phase = .none
    · simp only [if_pos hpn]; omega
    · simp only [if_neg hpn]; omega
  have ho : ∀ y, y ≠ x → off s' y = off s y := fun y hy => off_eq (hoth y hy) h2
  have hGx : ∀ y, G y → y ≠ x := fun y hy e => h.not_dead hy (e ▸ hd)
  have hgx : ∀ y ∈ s.gray, y ≠ x := fun y hy e => by
    have := hb.gray y hy; exact hd (e ▸ ⟨this.1, by omega⟩)
  have hrx : ∀ y ∈ s.rset, y ≠ x := fun y hy e => by
    have h24 := h.rs24 hy; exact hd (e ▸ ⟨(h.rs y hy).1, by omega⟩)
  have hnv : (newSlot s kids).version.ver % 2 = 0 ∧ (newSlot s kids).version.ver < 64 ∧ (newSlot s kids).version.gen = 0 := by
    have := hb.even
    unfold newSlot
    by_cases hpn : s.phase = .none
    · simp only [if_pos hpn, and_true]; omega
    · simp only [if_neg hpn, and_true]; omega
  have htf : ∀ b, s'.touch b = false → s.touch b = false := by
    intro b hb'
    cases e : s.touch b with
    | false => rfl
    | true => rw [ht _ e] at hb'; simp at hb'
  constructor
  · constructor
    · constructor
      · rw [h2]; exact hb.even
      · intro y; by_cases e : y = x
        · subst e; rw [hself]; exact hnv.2.1
        · rw [hoth y e]; exact hb.ver y
      · intro y; by_cases e : y = x
        · subst e; rw [hself, hnv.2.2]; decide
        · rw [hoth y e]; exact hb.gen y
      · rw [h3]; exact hb.nodup
      · intro y; rw [h3]; by_cases e : y = x
        · subst e; rw [hself]
          exact ⟨fun h => by omega, fun h => absurd rfl (hgx y h)⟩
        · rw [hoth y e]; exact hb.odd y
      · intro y hy; rw [h3] at hy
        rw [hoth y (hgx y hy), ho y (hgx y hy), h2]; exact hb.gray y hy
      · intro y hy htt hu
        by_cases e : y = x
        · subst e; rw [hoffx]
          by_cases hpn : s.phase = .none
          · rw [if_pos hpn]
          · rw [ht3 hpn hy] at htt; simp at htt
        · rw [hoth y e] at hu; rw [ho y e]; exact hb.touch y hy (htf _ htt) hu
      · intro b hl hn; rw [h6] at hn
        cases e : s'.touch b with
        | false => rfl
        | true =>
          rcases ht2 b e with h' | h' | h'
          · rw [hb.free b hl hn] at h'; simp at h'
          · exact absurd hn h'
          · rw [hl] at h'; simp at h'
      · intro y hu; rw [h6]
        by_cases e : y = x
        · subst e; exact hp
        · rw [hoth y e] at hu; exact hb.placed y hu
      · rw [h7, h6]; exact hb.listed
    · intro y hy; rcases List.mem_cons.mp hy with e | e
      · exact .inl e
      · exact .inr (h.held y e)
    · intro a ha
      rcases ha with rfl | ha
      · have hlim : off s' a ≤ lim s' := by
          have := hb.even
          rw [hoffx, lim_eq h4 h2]; unfold lim; split <;> omega
        refine ⟨by rw [hself]; rfl, hlim, ?_⟩
        intro b hb'; rw [hself] at hb'; exact .inr (hk b hb')
      · have hne := hGx a ha
        rw [hoth a hne, ho a hne, lim_eq h4 h2]
        obtain ⟨l1, l2, l3⟩ := h.live a ha
        exact ⟨l1, l2, fun b hb' => .inr (l3 b hb')⟩
    · intro p hp'; rw [h5] at hp'
      rw [hoth p (hrx p hp'), ho p (hrx p hp'), lim_eq h4 h2, h4]; exact h.rs p hp'
    · rw [h4, h3]; exact h.quiet
    · intro hph a ha h0
      rw [h4] at hph
      rcases ha with rfl | ha
      · rw [hoffx, hph] at h0; simp at h0
      · rw [ho a (hGx a ha)] at h0
        have := h.chain hph a ha h0
        clear ha h0
        have hne : ∀ y, GW s y → y ≠ x := fun y hy e => hy.not_dead hb (e ▸ hd)
        induction this with
        | gray h => exact .gray (by rw [h3]; exact h)
        | @step w b hw hk' hu ho' ih =>
          have hbx := hne b (.step hw hk' hu ho')
          exact .step ih (by rw [hoth w (hne w hw)]; exact hk') (by rw [hoth b hbx]; exact hu)
            (by rw [ho b hbx]; exact ho')
    · intro hph a ha
      rw [h4] at hph
      rcases ha with rfl | ha
      · rw [hoffx, hph]; simp
      · rw [ho a (hGx a ha)]; exact h.black hph a ha
  · intro a b ha hkb
    rcases ha with rfl | ha
    · intro _
      rw [hoffx, h4]
      by_cases hpn : s.phase = .none
      · rw [if_pos hpn]; left; omega
      · rw [if_neg hpn]; right; right; exact ⟨hpn, rfl⟩
    · have hne := hGx a ha
      rw [hoth a hne] at hkb
      have hbG := (h.live a ha).2.2 b hkb
      have := h.old a b ha hkb
      unfold genOK at *
      rw [ho a hne, ho b (hGx b hbG), h5, h4]; exact this

/-! ### the start of a cycle -/

theorem start_spec {s : St} {held G} (h : Inv s held G) (hp : s.phase = .none) (held' : List SlotId)
    (roots : List (Option SlotId)) (hh : ∀ x ∈ held', x ∈ held ∧ some x ∈ roots) :
    ∃ s', gcMarkRoot s roots = some s' ∧ Inv s' held' (Reach ⟨s, held'⟩) ∧
      (∀ x, (s'.obj x).used = (s.obj x).used) ∧ (∀ x, (s'.obj x).kids = (s.obj x).kids) := by
  have hg : s.gray = [] := h.quiet (by rw [hp]; simp)
  have hs0 : ({ s with gray := [] } : St) = s := by cases s; simp at hg; subst hg; rfl
  have hRG : ∀ x, Reach ⟨s, held'⟩ x → G x := by
    intro x hx
    induction hx with
    | held hx => exact h.held _ (hh _ hx).1
    | field _ hk ih => exact (h.live _ ih).2.2 _ hk
  obtain ⟨s1, e1, m1, r1⟩ := markAll_spec none roots s h.base (by simp)
  have bound : ∀ q, (s.obj q).used = true → off s q ≤ lim s → (s1.obj q).used = true ∧ off s1 q ≤ 24 := by
    intro q hu ho
    refine ⟨by rw [m1.ev.used]; exact hu, ?_⟩
    rcases m1.ev.change q with h | h
    · rw [off_eq h m1.ev.version]; have := lim_le s; omega
    · have := m1.base.gray q h.2; omega
  obtain ⟨s2, s3, e3, m2, hs3, k1, -, k3⟩ := gcRSetLoop_spec s1.rset s1 [] m1.base (by
    intro p hp'; rw [m1.ev.rset] at hp'
    have := h.rs p hp'; exact bound p this.1 this.2.1)
  have mm := m1.trans m2
  refine ⟨{ s3 with phase := .incr }, by unfold gcMarkRoot; rw [hs0]; simp [e1, e3], ?_, ?_, ?_⟩
  rotate_left
  · intro x; show (s3.obj x).used = _; rw [hs3]; exact mm.ev.used x
  · intro x; show (s3.obj x).kids = _; rw [hs3]; exact mm.ev.kids x
  generalize hs4 : ({ s3 with phase := .incr } : St) = s4
  have o4 : s4.obj = s2.obj := by subst hs4; rw [hs3]
  have v4 : s4.version = s2.version := by subst hs4; rw [hs3]
  have g4 : s4.gray = s2.gray := by subst hs4; rw [hs3]
  have t4 : s4.touch = s2.touch := by subst hs4; rw [hs3]
  have n4 : s4.nslots = s2.nslots := by subst hs4; rw [hs3]
  have l4 : s4.listed = s2.listed := by subst hs4; rw [hs3]
  have r4 : s4.rset = s3.rset := by subst hs4; rfl
  have p4 : s4.phase = .incr := by subst hs4; rfl
  have hoff3 : ∀ x, off s3 x = off s2 x := by intro x; rw [hs3]; rfl
  have hoff : ∀ x, off s4 x = off s2 x := fun x => off_eq (by rw [o4]) v4
  have hbase : Base s4 := m2.base.congr o4 v4 g4 t4 n4 l4
  have hl4 : lim s4 = 24 - s.version % 24 := by unfold lim; rw [p4, v4, mm.ev.version]; simp
  have hGbound : ∀ q, (s.obj q).used = true → off s q ≤ lim s → (s4.obj q).used = true ∧ off s4 q ≤ lim s4 := by
    intro q hu ho
    rw [hoff, o4]
    refine ⟨by rw [mm.ev.used]; exact hu, ?_⟩
    rcases mm.ev.change q with h | h
    · rw [off_eq h mm.ev.version]; have := lim_le s; omega
    · have := m2.base.gray q h.2; rw [mm.ev.version] at this; omega
  have hkids : ∀ x, (s4.obj x).kids = (s.obj x).kids := by intro x; rw [o4]; exact mm.ev.kids x
  constructor
  · constructor
    · exact hbase
    · intro x hx; exact .held hx
    · intro a ha
      have := h.live a (hRG a ha)
      have := hGbound a this.1 this.2.1
      refine ⟨this.1, this.2, ?_⟩
      intro b hb; rw [hkids] at hb; exact .field ha hb
    · intro p hpr; rw [r4] at hpr
      rcases k3 p hpr with h' | ⟨h', hpos⟩
      · simp at h'
      · rw [m1.ev.rset] at h'
        have := h.rs p h'
        have := hGbound p this.1 this.2.1
        refine ⟨this.1, this.2, fun _ => ?_⟩
        rw [hoff, ← hoff3]; exact hpos
    · intro hne; exact absurd p4 hne
    · intro _ a ha h0
      induction ha with
      | @held x hx =>
        exfalso
        have hGx := h.live x (hRG x (.held hx))
        have h24 := h.live24 (hRG x (.held hx))
        have := ((r1 x (hh x hx).2 hGx.1 (by omega)).mono m2.ev).1
        rw [hoff] at h0; omega
      | @field a x ha hk ih =>
        have hk : some x ∈ (s.obj a).kids := hk
        have hGa := h.live a (hRG a ha)
        have hGx := h.live x (hRG x (.field ha hk))
        have hux := (hGbound x hGx.1 hGx.2.1).1
        have hk4 : some x ∈ (s4.obj a).kids := by rw [hkids]; exact hk
        by_cases hga : a ∈ s4.gray
        · exact .step (.gray hga) hk4 hux h0
        · by_cases ha0 : off s4 a = 0
          · exact .step (ih ha0) hk4 hux h0
          · exfalso
            have hunch : s2.obj a = s.obj a := by
              rcases mm.ev.change a with h | h
              · exact h
              · rw [g4] at hga; exact absurd h.2 hga
            have hoa : off s a = off s4 a := by rw [hoff]; exact (off_eq hunch mm.ev.version).symm
            have hxle : off s x ≤ off s4 x := by rw [hoff]; exact mm.ev.off_le x
            have heven : off s a % 2 = 0 := by
              have h1 := off_odd s h.base.even a
              have h2 := h.base.odd a
              rw [hg] at h2
              simp at h2
              omega
            rcases h.old a x (hRG a ha) hk heven with h' | h' | h'
            · omega
            · have hle1 := m1.ev.off_le a
              have hle2 := m1.ev.off_le x
              have := (k1 a (by rw [m1.ev.rset]; exact h') (by omega)).2 x (by rw [m1.ev.kids]; exact hk)
                (by rw [m1.ev.used]; exact hGx.1) (by have := (bound x hGx.1 hGx.2.1).2; omega)
              rw [hoff3] at this
              rw [hoff] at h0; omega
            · exact h'.1 hp
    · intro hps; rw [p4] at hps; simp at hps
  · intro a b ha hk
    rw [hkids] at hk
    intro hev
    have hGa := h.live a (hRG a ha)
    have hunch : s2.obj a = s.obj a := by
      rcases mm.ev.change a with h | h
      · exact h
      · have := (m2.base.odd a).mpr h.2
        have := off_odd s2 m2.base.even a
        rw [hoff] at hev; omega
    have hoa : off s4 a = off s a := by rw [hoff]; exact off_eq hunch mm.ev.version
    rw [hoa] at hev ⊢
    by_cases hz : off s a = 0
    · left; omega
    rcases h.old a b (hRG a ha) hk hev with h' | h' | h'
    · left
      have hxle : off s b ≤ off s4 b := by rw [hoff]; exact mm.ev.off_le b
      have h1 := off_odd s h.base.even b
      have h2 := h.base.odd b
      rw [hg] at h2
      simp at h2
      omega
    · right; left; rw [r4]
      have hle1 := m1.ev.off_le a
      exact (k1 a (by rw [m1.ev.rset]; exact h') (by omega)).1
    · exact absurd hp h'.1

/-! ### processing a gray object -/

theorem markObject_gray (s : St) (l : List SlotId) (x minv) :
    markObject { s with gray := l ++ s.gray } x minv =
      (markObject s x minv).map (fun s' => { s' with gray := l ++ s'.gray }) := by
  unfold markObject
  split
  · simp only
    split
    · cases minv with
      | none => rfl
      | some m => simp only; split <;> rfl
    · by_cases hz : (s.obj x).version.ver % 64 = s.version % 64
      · simp only [if_pos hz]
        cases e : nextVersion (s.obj x).version.gen s.version with
        | none => rfl
        | some gv =>
          simp only [Option.map_some, Option.bind_eq_bind, Option.bind_some]
          cases minv with
          | none => simp [St.setVersion, St.setObj, St.setTouch]
          | some m =>
            simp only
            split <;> simp [St.setVersion, St.setObj, St.setTouch]
      · simp only [if_neg hz, Option.bind_eq_bind, Option.bind_some]
        cases minv with
        | none => simp
        | some m =>
          simp only
          split <;> simp [St.setVersion, St.setObj, St.setTouch]
  · rfl

theorem gcMark_gray (s : St) (l : List SlotId) (x minv) :
    gcMark { s with gray := l ++ s.gray } x minv =
      (gcMark s x minv).map (fun s' => { s' with gray := l ++ s'.gray }) := by
  unfold gcMark
  have : checkPointer { s with gray := l ++ s.gray } x = checkPointer s x := rfl
  rw [this]
  split
  · exact markObject_gray s l x minv
  · rfl

theorem markAll_gray (l : List SlotId) (minv) (k : List (Option SlotId)) (s : St) :
    markAll { s with gray := l ++ s.gray } minv k =
      (markAll s minv k).map (fun s' => { s' with gray := l ++ s'.gray }) := by
  induction k generalizing s with
  | nil => rfl
  | cons o r ih =>
    cases o with
    | none => exact ih s
    | some y =>
      simp only [markAll, gcMark_gray, Option.bind_eq_bind]
      cases gcMark s y minv with
      | none => rfl
      | some s1 => simp [ih s1]

theorem process_spec {s : St} {held G} (h : Inv s held G) (hp : s.phase = .incr) (x : SlotId) (rest : List SlotId)
    (hg : s.gray = x :: rest) :
    ∃ s', gcRunIncremental1 s = some s' ∧ Inv s' held G ∧ s'.phase = .incr ∧
      (∀ y, (s'.obj y).used = (s.obj y).used) ∧ (∀ y, (s'.obj y).kids = (s.obj y).kids) := by
  have hb := h.base
  have hxg : x ∈ s.gray := by rw [hg]; simp
  have hxodd := (hb.odd x).mpr hxg
  have hxo := hb.gray x hxg
  have hminv : ∀ m, some (s.obj x).version = some m → MinvOk s.version m := by
    intro m e; cases e; exact ⟨hxodd, hb.ver x, hb.gen x, hxo.2⟩
  obtain ⟨s1, e1, m1, r1⟩ := markAll_spec (some (s.obj x).version) (s.obj x).kids s hb hminv
  -- the same marks without `x` in the queue
  have hcomm := markAll_gray [x] (some (s.obj x).version) (s.obj x).kids { s with gray := rest }
  have hs : ({ ({ s with gray := rest } : St) with gray := [x] ++ rest } : St) = s := by
    cases s; simp at hg; subst hg; rfl
  simp only at hcomm
  rw [show ({ phase := s.phase, version := s.version, obj := s.obj, gray := [x] ++ rest, rset := s.rset, nslots := s.nslots, curr := s.curr, listed := s.listed, touch := s.touch } : St) = s from hs, e1] at hcomm
  cases e0 : markAll { s with gray := rest } (some (s.obj x).version) (s.obj x).kids with
  | none => rw [e0] at hcomm; simp at hcomm
  | some s0 =>
    rw [e0] at hcomm
    simp only [Option.map_some, Option.some.injEq] at hcomm
    -- s1 is s0 with x in front of the queue
    have hx1 : s1.obj x = s.obj x := m1.keep x hxodd (by intro m e; cases e; exact Nat.le_refl _)
    have i1 := h.evolve hp m1.base m1.ev
    have g1 : s1.gray = x :: s0.gray := by rw [hcomm]; rfl
    have o1 : s1.obj = s0.obj := by rw [hcomm]
    have v1 : s1.version = s0.version := by rw [hcomm]
    have p1 : s1.phase = s0.phase := by rw [hcomm]
    have rr1 : s1.rset = s0.rset := by rw [hcomm]
    have n1 : s1.nslots = s0.nslots := by rw [hcomm]
    have l1 : s1.listed = s0.listed := by rw [hcomm]
    have t1 : s1.touch = s0.touch := by rw [hcomm]
    have hrun : gcRunIncremental1 s = some (s0.setVersion x ⟨(s0.obj x).version.gen, ((s0.obj x).version.ver + 1) % 64⟩) := by
      unfold gcRunIncremental1
      rw [hg]
      simp only [hxodd, if_true, e0, Option.bind_eq_bind, Option.bind_some]
    refine ⟨_, hrun, ?_⟩
    rw [← o1]
    generalize hs2 : s0.setVersion x ⟨(s1.obj x).version.gen, ((s1.obj x).version.ver + 1) % 64⟩ = s2
    have obj2 : ∀ y, s2.obj y = if y = x then { s1.obj x with version := ⟨(s1.obj x).version.gen, ((s1.obj x).version.ver + 1) % 64⟩ } else s1.obj y := by
      intro y; subst hs2; rw [o1]; simp [St.setVersion, St.setObj, upd]
    have hoth : ∀ y, y ≠ x → s2.obj y = s1.obj y := fun y hy => by rw [obj2, if_neg hy]
    have hself : s2.obj x = { s1.obj x with version := ⟨(s1.obj x).version.gen, ((s1.obj x).version.ver + 1) % 64⟩ } := by
      rw [obj2, if_pos rfl]
    have v2 : s2.version = s1.version := by subst hs2; exact v1.symm
    have g2 : s2.gray = s0.gray := by subst hs2; rfl
    have p2 : s2.phase = .incr := by
      have : s2.phase = s0.phase := by subst hs2; rfl
      rw [this, ← p1, m1.ev.phase, hp]
    have r2 : s2.rset = s1.rset := by subst hs2; exact rr1.symm
    have n2 : s2.nslots = s1.nslots := by subst hs2; exact n1.symm
    have l2 : s2.listed = s1.listed := by subst hs2; exact l1.symm
    have t2 : s2.touch = s1.touch := by subst hs2; exact t1.symm
    have used2 : ∀ y, (s2.obj y).used = (s1.obj y).used := by
      intro y; rw [obj2]; split
      · rename_i e; subst e; rfl
      · rfl
    have kids2 : ∀ y, (s2.obj y).kids = (s1.obj y).kids := by
      intro y; rw [obj2]; split
      · rename_i e; subst e; rfl
      · rfl
    have hoffx1 : off s1 x = off s x := off_eq hx1 m1.ev.version
    have hpar := off_odd s hb.even x
    have hoffx : off s2 x = off s1 x + 1 := by
      have h1 : off s1 x ≤ 23 := by rw [hoffx1]; have := hxo.2; omega
      unfold off offV at h1 ⊢
      rw [hself, v2]
      simp only
      have := i1.base.ver x
      omega
    have hoffo : ∀ y, y ≠ x → off s2 y = off s1 y := fun y hy => off_eq (hoth y hy) v2
    have hb1 := i1.base
    have hnd : x ∉ s0.gray := by have := hb1.nodup; rw [g1] at this; exact (List.nodup_cons.mp this).1
    have hpar2 : ((s1.obj x).version.ver + 1) % 64 % 2 = 0 := by rw [hx1]; omega
    have hxodd1 : off s1 x % 2 = 1 := by omega
    have hl2 : lim s2 = 24 - s.version % 24 := by unfold lim; rw [p2, v2, m1.ev.version]; simp
    refine ⟨?_, p2, fun y => by rw [used2, m1.ev.used], fun y => by rw [kids2, m1.ev.kids]⟩
    constructor
    · constructor
      · constructor
        · rw [v2]; exact hb1.even
        · intro y; by_cases e : y = x
          · subst e; rw [hself]; exact Nat.mod_lt _ (by decide)
          · rw [hoth y e]; exact hb1.ver y
        · intro y; by_cases e : y = x
          · subst e; rw [hself]; exact hb1.gen y
          · rw [hoth y e]; exact hb1.gen y
        · rw [g2]; have := hb1.nodup; rw [g1] at this; exact (List.nodup_cons.mp this).2
        · intro y; rw [g2]; by_cases e : y = x
          · subst e; rw [hself]
            exact ⟨fun h => by simp only at h; omega, fun h => absurd h hnd⟩
          · rw [hoth y e, hb1.odd y, g1]; simp [e]
        · intro y hy; rw [g2] at hy
          have e : y ≠ x := fun e => hnd (e ▸ hy)
          rw [used2, hoffo y e, v2]
          exact hb1.gray y (by rw [g1]; simp [hy])
        · intro y hy ht hu; rw [t2] at ht; rw [used2] at hu
          have := hb1.touch y hy ht hu
          by_cases e : y = x
          · subst e; omega
          · rw [hoffo y e]; exact this
        · rw [n2, t2]; exact hb1.free
        · intro y hu; rw [used2] at hu; rw [n2]; exact hb1.placed y hu
        · rw [l2, n2]; exact hb1.listed
      · exact h.held
      · intro a ha
        rw [used2, kids2, hl2]
        obtain ⟨k1, k2, k3⟩ := i1.live a ha
        have hl1 := lim_le s1
        rw [m1.ev.version] at hl1
        refine ⟨k1, ?_, k3⟩
        by_cases e : a = x
        · subst e; rw [hoffx, hoffx1]; omega
        · rw [hoffo a e]; omega
      · intro p hpr; rw [r2] at hpr
        obtain ⟨k1, k2, k3⟩ := i1.rs p hpr
        rw [used2, hl2]
        have hl1 := lim_le s1
        rw [m1.ev.version] at hl1
        refine ⟨k1, ?_⟩
        by_cases e : p = x
        · subst e; rw [hoffx, hoffx1]; exact ⟨by omega, fun _ => by omega⟩
        · rw [hoffo p e]; exact ⟨by omega, fun _ => k3 (by rw [m1.ev.phase, hp]; simp)⟩
      · intro hne; exact absurd p2 hne
      · intro _ a ha h0
        have hax : a ≠ x := fun e => by subst e; omega
        rw [hoffo a hax] at h0
        have hgw := i1.chain (by rw [m1.ev.phase, hp]) a ha h0
        clear ha h0
        have : a ≠ x → GW s2 a := by
          clear hax
          induction hgw with
          | gray h =>
            intro hne
            rw [g1] at h
            exact .gray (by rw [g2]; simpa [hne] using h)
          | @step w b hw hk hu ho' ih =>
            intro hne
            by_cases e : w = x
            · subst e
              exfalso
              rw [m1.ev.kids] at hk
              rw [m1.ev.used] at hu
              have hle := m1.ev.off_le b
              have := (r1 b hk hu (by omega)).1
              omega
            · exact .step (ih e) (by rw [kids2]; exact hk) (by rw [used2]; exact hu) (by rw [hoffo b hne]; exact ho')
        exact this hax
      · intro hps; rw [p2] at hps; simp at hps
    · intro a b ha hk
      rw [kids2] at hk
      intro hev
      have hGb := (i1.live a ha).2.2 b hk
      have hbtv : off s1 b + off s1 b % 2 ≤ off s2 b + off s2 b % 2 := by
        by_cases e : b = x
        · subst e; omega
        · rw [hoffo b e]; omega
      by_cases e : a = x
      · subst e
        left
        rw [m1.ev.kids] at hk
        have lb := h.live b hGb
        have lb24 := h.live24 hGb
        have := (r1 b hk lb.1 (by omega)).2 _ rfl
        have h2 : offV s1.version (s.obj a).version.ver = off s1 a := by unfold off; rw [hx1]
        omega
      · rw [hoffo a e] at hev ⊢
        rw [r2, p2]
        rcases i1.old a b ha hk hev with h' | h' | h'
        · left; omega
        · exact .inr (.inl h')
        · exact .inr (.inr ⟨by simp, h'.2⟩)

/-! ### the end of a cycle -/

theorem GW.empty {s : St} (hg : s.gray = []) {a} (h : GW s a) : False := by
  induction h with
  | gray h => rw [hg] at h; simp at h
  | step _ _ _ _ ih => exact ih

theorem to_sweep {s : St} {held G} (h : Inv s held G) (hp : s.phase = .incr) (hg : s.gray = []) :
    Inv { s with phase := .sweep } held G := by
  generalize hs : ({ s with phase := .sweep } : St) = s'
  have o : s'.obj = s.obj := by subst hs; rfl
  have v : s'.version = s.version := by subst hs; rfl
  have g : s'.gray = s.gray := by subst hs; rfl
  have r : s'.rset = s.rset := by subst hs; rfl
  have p : s'.phase = .sweep := by subst hs; rfl
  have ho : ∀ x, off s' x = off s x := fun x => off_eq (by rw [o]) v
  have hl : lim s' = lim s := by unfold lim; rw [p, hp, v]; simp
  constructor
  · constructor
    · exact h.base.congr o v g (by subst hs; rfl) (by subst hs; rfl) (by subst hs; rfl)
    · exact h.held
    · intro a ha; rw [o, ho, hl]; exact h.live a ha
    · intro q hq; rw [r] at hq; rw [o, ho, hl]
      obtain ⟨k1, k2, k3⟩ := h.rs q hq
      exact ⟨k1, k2, fun _ => k3 (by rw [hp]; simp)⟩
    · intro _; rw [g]; exact hg
    · intro hc; rw [p] at hc; simp at hc
    · intro _ a ha; rw [ho]
      apply Nat.pos_of_ne_zero
      intro h0
      exact (h.chain hp a ha h0).empty hg
  · intro a b ha hk; rw [o] at hk
    intro hev
    rw [ho] at hev
    rw [ho, ho, r, p]
    rcases h.old a b ha hk hev with h' | h' | h'
    · exact .inl h'
    · exact .inr (.inl h')
    · exact .inr (.inr ⟨by simp, h'.2⟩)

theorem flip_spec {s : St} {held G} (h : Inv s held G) (hp : s.phase = .sweep) :
    Inv (gcFlip s) held G ∧ (∀ x, G x → (gcFlip s).obj x = s.obj x) := by
  have hb := h.base
  have hg : s.gray = [] := h.quiet (by rw [hp]; simp)
  have heven : ∀ x, (s.obj x).version.ver % 2 = 0 := by
    intro x; have := hb.odd x; rw [hg] at this; simp at this; omega
  have hpar : ∀ x, off s x % 2 = 0 := fun x => by rw [off_odd s hb.even]; exact heven x
  generalize hs : gcFlip s = s'
  let rc : Nat → Bool := fun b => !Layout.large b && decide (s.nslots b ≠ 0) && !(s.touch b || s.listed b)
  have o : ∀ x : SlotId, s'.obj x = if rc x.1 = true then Slot.zero else s.obj x := by intro x; subst hs; rfl
  have n : ∀ b, s'.nslots b = if rc b = true then 0 else s.nslots b := by intro b; subst hs; rfl
  have t : ∀ b, s'.touch b = (s.touch b || s.listed b) := by intro b; subst hs; rfl
  have v : s'.version = s.version + 2 := by subst hs; rfl
  have g : s'.gray = [] := by subst hs; exact hg
  have r : s'.rset = s.rset := by subst hs; rfl
  have p : s'.phase = .none := by subst hs; rfl
  have l : ∀ b, s'.listed b = (!Layout.large b && decide (s.nslots b ≠ 0) && (s.touch b || s.listed b)) := by
    intro b; subst hs; rfl
  have hrc : ∀ b, rc b = true ↔ Layout.large b = false ∧ s.nslots b ≠ 0 ∧ s.touch b = false ∧ s.listed b = false := by
    intro b; simp only [rc]; cases Layout.large b <;> cases s.touch b <;> cases s.listed b <;> simp
  -- used objects that are ahead of the version survive
  have keep : ∀ x, (s.obj x).used = true → 0 < off s x → s'.obj x = s.obj x := by
    intro x hu hpos
    rw [o, if_neg]
    intro hr
    obtain ⟨h1, -, h3, -⟩ := (hrc x.1).mp hr
    have := hb.touch x h1 h3 hu
    omega
  have hGo : ∀ x, G x → s'.obj x = s.obj x := fun x hx => keep x (h.live x hx).1 (h.black hp x hx)
  have hro : ∀ q ∈ s.rset, s'.obj q = s.obj q := fun q hq =>
    keep q (h.rs q hq).1 ((h.rs q hq).2.2 (by rw [hp]; simp))
  have hoff : ∀ x, s'.obj x = s.obj x → 0 < off s x → off s' x + 2 = off s x := by
    intro x e hpos
    have := hpar x
    have := hb.even
    unfold off offV at *
    rw [e, v]
    omega
  have hl' : lim s' + 2 = lim s := by
    have := hb.even
    unfold lim; rw [p, hp, v]; simp; omega
  refine ⟨?_, hGo⟩
  constructor
  · constructor
    · constructor
      · rw [v]; have := hb.even; omega
      · intro x; rw [o]; split
        · decide
        · exact hb.ver x
      · intro x; rw [o]; split
        · decide
        · exact hb.gen x
      · rw [g]; exact List.nodup_nil
      · intro x; rw [g, o]; split
        · simp [Slot.zero]
        · have := heven x; simp; omega
      · intro x hx; rw [g] at hx; simp at hx
      · intro x hl ht hu
        rw [t] at ht
        rw [o] at hu
        split at hu
        · simp [Slot.zero] at hu
        · rename_i hr
          exfalso
          rcases hb.placed x hu with h' | h'
          · rw [h'] at hl; simp at hl
          · apply hr
            rw [hrc]
            exact ⟨hl, h', by simpa using ht⟩
      · intro b hl hn
        rw [n] at hn
        rw [t]
        split at hn
        · rename_i hr
          have := (hrc b).mp hr
          simp [this.2.2.1, this.2.2.2]
        · rw [hb.free b hl hn]
          cases e : s.listed b with
          | false => rfl
          | true => exact absurd hn (hb.listed b e).2
      · intro x hu
        rw [o] at hu
        rw [n]
        split at hu
        · simp [Slot.zero] at hu
        · rename_i hr
          rw [if_neg hr]; exact hb.placed x hu
      · intro b hlb; rw [l] at hlb
        rw [n]
        have h1 : Layout.large b = false := by cases e : Layout.large b <;> simp_all
        have h2 : s.nslots b ≠ 0 := by intro e; simp [e] at hlb
        refine ⟨h1, ?_⟩
        rw [if_neg]
        · exact h2
        · intro hr
          have := (hrc b).mp hr
          simp [this.2.2.1, this.2.2.2] at hlb
    · exact h.held
    · intro a ha
      obtain ⟨k1, k2, k3⟩ := h.live a ha
      have := hoff a (hGo a ha) (h.black hp a ha)
      rw [hGo a ha]
      exact ⟨k1, by omega, k3⟩
    · intro q hq; rw [r] at hq
      obtain ⟨k1, k2, k3⟩ := h.rs q hq
      have := hoff q (hro q hq) (k3 (by rw [hp]; simp))
      rw [hro q hq]
      exact ⟨k1, by omega, fun hne => absurd p hne⟩
    · intro _; exact g
    · intro hc; rw [p] at hc; simp at hc
    · intro hc; rw [p] at hc; simp at hc
  · intro a b ha hk hev
    rw [hGo a ha] at hk
    have hGb := (h.live a ha).2.2 b hk
    have ea := hoff a (hGo a ha) (h.black hp a ha)
    have eb := hoff b (hGo b hGb) (h.black hp b hGb)
    rw [r]
    rcases h.old a b ha hk (hpar a) with h' | h' | h'
    · left; have := hpar b; omega
    · exact .inr (.inl h')
    · left; omega

end Cora.GC
