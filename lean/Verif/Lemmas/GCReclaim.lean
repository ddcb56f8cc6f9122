import Verif.Lemmas.GCLive
/- Lemmas for C32: small objects that stay unreachable are reclaimed. -/
namespace Cora.GC
variable [Layout]
set_option linter.unusedSectionVars false

/-! ### where the versions of small objects are -/

/-- marking and stores: no slot is allocated or freed, and a version that changes stays within the window -/
structure Calm (s s' : St) : Prop where
  version : s'.version = s.version
  nslots : s'.nslots = s.nslots
  curr : s'.curr = s.curr
  listed : s'.listed = s.listed
  used : ∀ x, (s'.obj x).used = (s.obj x).used
  lim : lim s ≤ lim s'
  change : ∀ x, (s'.obj x).version = (s.obj x).version ∨ off s' x ≤ GC.lim s'
  sweep : s'.phase = .sweep → s.phase = .sweep

theorem off_eqv {s s' : St} {x} (h : (s'.obj x).version = (s.obj x).version) (hv : s'.version = s.version) :
    off s' x = off s x := by unfold off; rw [h, hv]

theorem Calm.refl (s : St) : Calm s s :=
  ⟨rfl, rfl, rfl, rfl, fun _ => rfl, Nat.le_refl _, fun _ => .inl rfl, id⟩

theorem Calm.trans {a b c : St} (h1 : Calm a b) (h2 : Calm b c) : Calm a c where
  version := h2.version.trans h1.version
  nslots := h2.nslots.trans h1.nslots
  curr := h2.curr.trans h1.curr
  listed := h2.listed.trans h1.listed
  used x := (h2.used x).trans (h1.used x)
  lim := Nat.le_trans h1.lim h2.lim
  change x := by
    rcases h2.change x with e | e
    · rcases h1.change x with e' | e'
      · exact .inl (e.trans e')
      · right; rw [off_eqv e h2.version]; exact Nat.le_trans e' h2.lim
    · exact .inr e
  sweep h := h1.sweep (h2.sweep h)

theorem lim_busy {s : St} (h : s.phase ≠ .none) : lim s = 24 - s.version % 24 := by
  unfold lim; rw [if_neg h]

theorem Calm.of_evolve {s s' : St} (e : Evolve s s') (hb : Base s') (hp : s.phase ≠ .none) : Calm s s' where
  version := e.version
  nslots := e.nslots
  curr := e.curr
  listed := e.listed
  used := e.used
  lim := by rw [lim_eq e.phase e.version]; exact Nat.le_refl _
  change x := by
    rcases e.change x with h | h
    · left; rw [h]
    · right
      have := hb.gray x h.2
      rw [lim_busy (by rw [e.phase]; exact hp)]
      omega
  sweep h := by rw [← e.phase]; exact h

/-- changes that keep the versions -/
theorem Calm.same {s s' : St} (h1 : s'.version = s.version) (h2 : s'.nslots = s.nslots) (h3 : s'.curr = s.curr)
    (h4 : s'.listed = s.listed) (h5 : s'.phase = s.phase)
    (h6 : ∀ x, (s'.obj x).used = (s.obj x).used ∧ (s'.obj x).version = (s.obj x).version) : Calm s s' :=
  ⟨h1, h2, h3, h4, fun x => (h6 x).1, by rw [lim_eq h5 h1]; exact Nat.le_refl _, fun x => .inl (h6 x).2,
    fun h => by rw [← h5]; exact h⟩

/-- where a small object's version may be: within the window, or so far behind that the next sweep comes before
the comparison wraps around; in that case the allocator has not passed it yet -/
structure Small (s : St) : Prop where
  fit : ∀ x : SlotId, Layout.large x.1 = false → (s.obj x).used = true → x.2 < s.nslots x.1
  near : ∀ x : SlotId, Layout.large x.1 = false → (s.obj x).used = true →
    off s x ≤ lim s ∨ (62 - (s.version + 28) % 30 ≤ off s x ∧ s.listed x.1 = true ∧ s.curr x.1 ≤ x.2)
  swept : s.phase = .sweep → s.version % 30 = 0

theorem Small.calm {s s' : St} (h : Small s) (c : Calm s s') : Small s' where
  fit x hl hu := by rw [c.nslots]; rw [c.used] at hu; exact h.fit x hl hu
  near x hl hu := by
    rw [c.used] at hu
    rcases c.change x with e | e
    · rw [off_eqv e c.version, c.version, c.listed, c.curr]
      rcases h.near x hl hu with h | h
      · left; exact Nat.le_trans h c.lim
      · exact .inr h
    · exact .inl e
  swept hp := by rw [c.version]; exact h.swept (c.sweep hp)

theorem Small.stale {s : St} (h : Small s) {x : SlotId} (hl : Layout.large x.1 = false) (hu : (s.obj x).used = true)
    (ho : lim s < off s x) : 33 ≤ off s x := by
  rcases h.near x hl hu with h | h
  · omega
  · have := h.1; omega

theorem stale_dead {s : St} {x : SlotId} (ho : 33 ≤ off s x) : inuse s (s.obj x) = 0 := by
  unfold inuse
  split
  · rfl
  · rw [if_pos (vcmp_V_stale _ _ (by unfold off at ho; omega))]

theorem init_small : Small St.init := by
  constructor <;> simp [St.init, Slot.zero]

/-- the effect of a flip on the distance -/
theorem off_flip {s s' : St} {x} (h : (s'.obj x).version = (s.obj x).version) (hv : s'.version = s.version + 2)
    (he : s.version % 2 = 0) (hx : (s.obj x).version.ver < 64) (ho : off s x % 2 = 0) :
    off s' x = if off s x = 0 then 62 else off s x - 2 := by
  unfold off offV at *
  rw [h, hv]
  split <;> omega

theorem lim_flip {s s' : St} (hp : s.phase ≠ .none) (hp' : s'.phase = .none) (hv : s'.version = s.version + 2)
    (he : s.version % 2 = 0) : lim s' + 2 = lim s := by
  unfold lim
  rw [if_pos hp', if_neg hp, hv]
  omega

theorem Small.flip {s : St} {held G} (hI : Inv s held G) (h : Small s) (hp : s.phase ≠ .none) (hg : s.gray = [])
    (hd : s.version % 30 = 0 → sweptAll s) : Small (gcFlip s) := by
  have hb := hI.base
  have hev : ∀ x, off s x % 2 = 0 := by
    intro x
    rw [off_odd s hb.even]
    have : ¬ (s.obj x).version.ver % 2 = 1 := fun h' => by have := (hb.odd x).mp h'; rw [hg] at this; simp at this
    omega
  have hused : ∀ x : SlotId, Layout.large x.1 = false → ((gcFlip s).obj x).used = true →
      (s.obj x).used = true ∧ (gcFlip s).obj x = s.obj x ∧ (gcFlip s).nslots x.1 = s.nslots x.1 ∧
      (gcFlip s).listed x.1 = true := by
    intro x hl hu
    simp only [gcFlip] at hu ⊢
    split at hu
    · simp [Slot.zero] at hu
    · rename_i hr
      have hns : s.nslots x.1 ≠ 0 := by have := h.fit x hl hu; omega
      simp only [hl, hns, ne_eq, not_false_eq_true, decide_true, Bool.not_false, Bool.true_and,
        Bool.not_eq_true', Bool.not_eq_false] at hr
      simp [hl, hns, hu, hr]
  constructor
  · intro x hl hu
    obtain ⟨h1, -, h3, -⟩ := hused x hl hu
    rw [h3]; exact h.fit x hl h1
  · intro x hl hu
    obtain ⟨h1, h2, h3, h4⟩ := hused x hl hu
    have ho := off_flip (s' := gcFlip s) (by rw [h2]) rfl hb.even (hb.ver x) (hev x)
    have hlim := lim_flip (s := s) (s' := gcFlip s) hp rfl rfl hb.even
    have hl64 := offV_lt s.version (s.obj x).version.ver
    have hl64 : off s x < 64 := hl64
    have hve : (gcFlip s).version = s.version + 2 := rfl
    have hlx : lim s ≤ 24 := by have := lim_le s; omega
    rw [hve, ho]
    have hev2 := hb.even
    rcases h.near x hl h1 with hn | hn
    · by_cases hz : off s x = 0
      · right; rw [if_pos hz]; exact ⟨by omega, h4, Nat.zero_le _⟩
      · left; rw [if_neg hz]; have := hev x; omega
    · right
      refine ⟨?_, h4, Nat.zero_le _⟩
      by_cases hz : s.version % 30 = 0
      · exfalso
        have := hd hz x hl hn.2.1 hn.2.2 (h.fit x hl h1) h1
        exact this (stale_dead (by omega))
      · rw [if_neg (by omega)]
        omega
  · intro hp'; simp [gcFlip] at hp'

/-! ### stores -/

/-- what a store does to the versions, the gray queue and the remembered set -/
theorem store_frame {s s' : St} {held G} (h : Inv s held G) {a i} {v : Option SlotId} (ha : G a)
    (hv : ∀ x, v = some x → G x) (hst : storeField s a i v = some s') :
    Calm s s' ∧ s'.phase = s.phase ∧ ∀ y, y ≠ a → some y ∉ (s.obj a).kids → v ≠ some y →
      (s'.obj y).version = (s.obj y).version ∧ (y ∈ s'.gray ↔ y ∈ s.gray) ∧ (y ∈ s'.rset ↔ y ∈ s.rset) := by
  obtain ⟨s'', e, hI', -⟩ := store_spec h a i v ha hv
  rw [hst] at e; cases e
  unfold storeField barrierIncr at hst
  simp only [Option.bind_eq_bind] at hst
  cases e1 : markOld s a i with
  | none => rw [e1] at hst; simp at hst
  | some s1 =>
    rw [e1] at hst
    simp only [Option.bind_some] at hst
    have h1 : Calm s s1 ∧ Base s1 ∧ s1.phase = s.phase ∧ s1.rset = s.rset ∧ ∀ y, some y ∉ (s.obj a).kids →
        s1.obj y = s.obj y ∧ (y ∈ s1.gray ↔ y ∈ s.gray) := by
      unfold markOld at e1
      split at e1
      · rename_i hp
        split at e1
        · rename_i old hold
          obtain ⟨s1', e', m, -⟩ := gcMark_spec s old none h.base (by simp)
          rw [e1] at e'; cases e'
          refine ⟨Calm.of_evolve m.ev m.base (by rw [hp]; simp), m.base, m.ev.phase, m.ev.rset, ?_⟩
          intro y hy
          exact gcMark_frame e1 y (fun e => hy (e ▸ List.mem_of_getElem? hold))
        · cases e1; exact ⟨Calm.refl _, h.base, rfl, rfl, fun _ _ => ⟨rfl, Iff.rfl⟩⟩
      · cases e1; exact ⟨Calm.refl _, h.base, rfl, rfl, fun _ _ => ⟨rfl, Iff.rfl⟩⟩
    obtain ⟨c1, hb1, p1, r1, f1⟩ := h1
    generalize hs2 : s1.setObj a { s1.obj a with kids := (s1.obj a).kids.set i v } = s2 at hst
    have hver : ∀ y, (s2.obj y).used = (s1.obj y).used ∧ (s2.obj y).version = (s1.obj y).version := by
      intro y; subst hs2; simp only [St.setObj, upd]; split <;> simp_all
    have c2 : Calm s1 s2 := Calm.same (by subst hs2; rfl) (by subst hs2; rfl) (by subst hs2; rfl)
      (by subst hs2; rfl) (by subst hs2; rfl) hver
    have g2 : s2.gray = s1.gray := by subst hs2; rfl
    have r2 : s2.rset = s1.rset := by subst hs2; rfl
    have p2 : s2.phase = s1.phase := by subst hs2; rfl
    have hb2 : Base s2 := by
      have ho : ∀ y, off s2 y = off s1 y := by intro y; exact off_eqv (hver y).2 c2.version
      have hb := hb1
      constructor
      · rw [c2.version]; exact hb.even
      · intro y; rw [(hver y).2]; exact hb.ver y
      · intro y; rw [(hver y).2]; exact hb.gen y
      · rw [g2]; exact hb.nodup
      · intro y; rw [(hver y).2, g2]; exact hb.odd y
      · intro y; rw [(hver y).1, ho, g2, c2.version]; exact hb.gray y
      · intro y; rw [(hver y).1, ho]; have := hb.touch y; subst hs2; exact this
      · subst hs2; exact hb.free
      · intro y; rw [(hver y).1, c2.nslots]; exact hb.placed y
      · rw [c2.listed, c2.nslots]; exact hb.listed
    have base12 : Calm s s2 := c1.trans c2
    have fr12 : ∀ y, some y ∉ (s.obj a).kids → (s2.obj y).version = (s.obj y).version ∧
        (y ∈ s2.gray ↔ y ∈ s.gray) ∧ (y ∈ s2.rset ↔ y ∈ s.rset) := by
      intro y hy
      obtain ⟨h1, h2⟩ := f1 y hy
      exact ⟨(hver y).2.trans (by rw [h1]), by rw [g2]; exact h2, by rw [r2, r1]⟩
    have quiet : ∀ s3 : St, s3 = s2 → Calm s s3 ∧ s3.phase = s.phase ∧ ∀ y, y ≠ a → some y ∉ (s.obj a).kids → v ≠ some y →
      (s3.obj y).version = (s.obj y).version ∧ (y ∈ s3.gray ↔ y ∈ s.gray) ∧ (y ∈ s3.rset ↔ y ∈ s.rset) := by
      rintro s3 rfl
      exact ⟨base12, p2.trans p1, fun y _ hy _ => fr12 y hy⟩
    obtain ⟨q1, q2, q3, q4, q5, q6, q7, q8⟩ := addRSet_fields s2 a
    have q9 : (addRSet s2 a).curr = s2.curr := by unfold addRSet; split <;> rfl
    have cr : Calm s2 (addRSet s2 a) := Calm.same q2 q6 q9 q7 q3 (fun x => by rw [q1]; exact ⟨rfl, rfl⟩)
    have quietR : ∀ s3 : St, s3 = addRSet s2 a → Calm s s3 ∧ s3.phase = s.phase ∧ ∀ y, y ≠ a → some y ∉ (s.obj a).kids → v ≠ some y →
      (s3.obj y).version = (s.obj y).version ∧ (y ∈ s3.gray ↔ y ∈ s.gray) ∧ (y ∈ s3.rset ↔ y ∈ s.rset) := by
      rintro s3 rfl
      refine ⟨base12.trans cr, q3.trans (p2.trans p1), fun y hne hy _ => ?_⟩
      obtain ⟨h1, h2, h3⟩ := fr12 y hy
      refine ⟨by rw [q1]; exact h1, by rw [q4]; exact h2, ?_⟩
      rw [q8]; simp [hne, h3]
    unfold barrierGen at hst
    split at hst
    · cases hst; exact quiet _ rfl
    · rename_i h'
      split at hst
      · cases hst; exact quiet _ rfl
      · split at hst
        · cases hst; exact quietR _ rfl
        · cases hst; exact quietR _ rfl
        · rename_i hph
          split at hst
          · cases hst; exact quiet _ rfl
          · obtain ⟨s4, e4, m4, -⟩ := gcMark_spec (addRSet s2 a) h' none (hb2.congr q1 q2 q4 q5 q6 q7) (by simp)
            rw [hst] at e4; cases e4
            obtain ⟨t1, t2, t3⟩ := quietR _ rfl
            refine ⟨t1.trans (Calm.of_evolve m4.ev m4.base (by rw [q3, hph]; simp)), m4.ev.phase.trans t2, ?_⟩
            intro y hne hy hvy
            obtain ⟨u1, u2, u3⟩ := t3 y hne hy hvy
            obtain ⟨w1, w2⟩ := gcMark_frame hst y (fun e => hvy (by rw [e]))
            exact ⟨by rw [w1]; exact u1, w2.trans u2, by rw [m4.ev.rset]; exact u3⟩

/-! ### starting a cycle -/

theorem gcRSetLoop_calm (l : List SlotId) {s s' : St} (kept) (hb : Base s) (hp : s.phase = .none)
    (h : gcRSetLoop s kept l = some s') : ∃ s1, Evolve s s1 ∧ Base s1 ∧ s' = { s1 with rset := s'.rset } := by
  induction l generalizing s kept with
  | nil => cases h; exact ⟨s, Evolve.refl s, hb, rfl⟩
  | cons p r ih =>
    unfold gcRSetLoop at h
    split at h
    · exact ih kept hb hp h
    · obtain ⟨sa, ea, ma, -⟩ := markAll_spec none (s.obj p).kids s hb (by simp)
      rw [ea] at h
      simp only [Option.bind_eq_bind, Option.bind_some] at h
      obtain ⟨s1, e1, b1, h1⟩ := ih (p :: kept) ma.base (by rw [ma.ev.phase]; exact hp) h
      exact ⟨s1, ma.ev.trans e1, b1, h1⟩

theorem start_calm {s s' : St} {held G} (hI : Inv s held G) (hp : s.phase = .none) {roots : List (Option SlotId)}
    (h : gcMarkRoot s roots = some s') : Calm s s' ∧ s'.phase = .incr := by
  have hg : s.gray = [] := hI.quiet (by rw [hp]; simp)
  have hs0 : ({ s with gray := [] } : St) = s := by cases s; simp at hg; subst hg; rfl
  unfold gcMarkRoot at h
  simp only [Option.bind_eq_bind] at h
  rw [hs0] at h
  obtain ⟨s1, e1, m1, -⟩ := markAll_spec none roots s hI.base (by simp)
  rw [e1] at h
  simp only [Option.bind_some] at h
  cases e2 : gcRSetLoop s1 [] s1.rset with
  | none => rw [e2] at h; simp at h
  | some s2 =>
    rw [e2] at h
    simp only [Option.bind_some, Option.some.injEq] at h
    obtain ⟨s3, ev3, b3, h3⟩ := gcRSetLoop_calm s1.rset [] m1.base (by rw [m1.ev.phase]; exact hp) e2
    have ev := m1.ev.trans ev3
    have hobj : s'.obj = s3.obj := by rw [← h, h3]
    have hver : s'.version = s3.version := by rw [← h, h3]
    have hph : s'.phase = .incr := by rw [← h]
    refine ⟨⟨?_, ?_, ?_, ?_, ?_, ?_, ?_, ?_⟩, hph⟩
    · rw [hver]; exact ev.version
    · rw [← h, h3]; exact ev.nslots
    · rw [← h, h3]; exact ev.curr
    · rw [← h, h3]; exact ev.listed
    · intro x; rw [hobj]; exact ev.used x
    · unfold lim; rw [hp, hph, hver, ev.version]; simp only [reduceCtorEq, if_true, if_false]; omega
    · intro x
      rw [hobj]
      rcases ev.change x with hc | hc
      · left; rw [hc]
      · right
        have := b3.gray x hc.2
        rw [lim_busy (by rw [hph]; simp), off_eq (by rw [hobj]) hver, hver]; omega
    · rw [hph]; simp

/-! ### a round of marking -/

theorem round_calm {s s' : St} {held G} (hI : Inv s held G) (hp : s.phase = .incr) {x rest} (hg : s.gray = x :: rest)
    (h : gcRunIncremental1 s = some s') :
    Calm s s' ∧ s'.rset = s.rset ∧ ∀ y, y ≠ x → some y ∉ (s.obj x).kids →
      (s'.obj y).version = (s.obj y).version ∧ (y ∈ s'.gray ↔ y ∈ s.gray) := by
  have hb := hI.base
  have hxg : x ∈ s.gray := by rw [hg]; simp
  have hxo := hb.gray x hxg
  obtain ⟨s'', e, hI', hp', hu', -⟩ := process_spec hI hp x rest hg
  rw [h] at e; cases e
  unfold gcRunIncremental1 at h
  rw [hg] at h
  simp only at h
  rw [if_pos ((hb.odd x).mpr hxg)] at h
  simp only [Option.bind_eq_bind] at h
  have hminv : ∀ m, some (s.obj x).version = some m → MinvOk s.version m := by
    intro m e; cases e; exact ⟨(hb.odd x).mpr hxg, hb.ver x, hb.gen x, hxo.2⟩
  obtain ⟨s1, e1, m1, -⟩ := markAll_spec (some (s.obj x).version) (s.obj x).kids s hb hminv
  have hcomm := markAll_gray [x] (some (s.obj x).version) (s.obj x).kids { s with gray := rest }
  have hs : ({ ({ s with gray := rest } : St) with gray := [x] ++ rest } : St) = s := by
    cases s; simp at hg; subst hg; rfl
  simp only at hcomm
  rw [show ({ phase := s.phase, version := s.version, obj := s.obj, gray := [x] ++ rest, rset := s.rset, nslots := s.nslots, curr := s.curr, listed := s.listed, touch := s.touch } : St) = s from hs, e1] at hcomm
  cases e0 : markAll { s with gray := rest } (some (s.obj x).version) (s.obj x).kids with
  | none => rw [e0] at hcomm; simp at hcomm
  | some s0 =>
    rw [e0] at h hcomm
    simp only [Option.map_some, Option.some.injEq] at hcomm
    simp only [Option.bind_some, Option.some.injEq] at h
    have hobj0 : s1.obj = s0.obj := by rw [hcomm]
    have hv0 : s1.version = s0.version := by rw [hcomm]
    have hfar : ∀ y, y ≠ x → s'.obj y = s1.obj y := by
      intro y hy; rw [← h, hobj0]; simp [St.setVersion, St.setObj, upd, hy]
    have hver : s'.version = s1.version := by rw [← h, hv0]; rfl
    have hlimx : off s' x ≤ lim s' := by
      -- the version of `x` does not change while its fields are marked
      have hk : s1.obj x = s.obj x := m1.keep x ((hb.odd x).mpr hxg) (by intro m e; cases e; exact Nat.le_refl _)
      have : (s'.obj x).version.ver = ((s.obj x).version.ver + 1) % 64 := by
        rw [← h, ← hk, hobj0]; simp [St.setVersion, St.setObj, upd]
      rw [lim_busy (by rw [hp']; simp), hver, m1.ev.version]
      have h1 := hxo.2
      unfold off offV at h1 ⊢
      rw [this, hver, m1.ev.version]
      generalize s.version % 24 = z at *
      omega
    refine ⟨⟨?_, ?_, ?_, ?_, hu', ?_, ?_, ?_⟩, ?_, ?_⟩
    · rw [hver]; exact m1.ev.version
    · rw [← m1.ev.nslots, ← h, hcomm]; rfl
    · rw [← m1.ev.curr, ← h, hcomm]; rfl
    · rw [← m1.ev.listed, ← h, hcomm]; rfl
    · rw [lim_eq (hp'.trans hp.symm) (hver.trans m1.ev.version)]; exact Nat.le_refl _
    · intro y
      by_cases e : y = x
      · right; rw [e]; exact hlimx
      · rw [hfar y e]
        rcases m1.ev.change y with hc | hc
        · left; rw [hc]
        · right
          have := m1.base.gray y hc.2
          rw [lim_busy (by rw [hp']; simp), off_eq (hfar y e) hver, hver]; omega
    · rw [hp']; simp
    · rw [← m1.ev.rset, ← h, hcomm]; rfl
    · intro y hy hk
      obtain ⟨a1, -⟩ := markAll_frame _ _ e1 y hk
      refine ⟨by rw [hfar y hy, a1], ?_⟩
      have := (markAll_frame _ _ e0 y hk).2
      have hgr : s'.gray = s0.gray := by rw [← h]; rfl
      rw [hgr, this, hg]; simp [hy]

end Cora.GC
