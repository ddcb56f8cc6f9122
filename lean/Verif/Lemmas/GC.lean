import Verif.Model.GC
import Verif.Props.GCBase
/- Invariants of the collector, used by Props/GC.lean. -/
namespace Cora.GC
variable [Layout]
set_option linter.unusedSectionVars false

/-- distance of a version ahead of the collector's, modulo 64 -/
def offV (V : Nat) (v : Nat) : Nat := (v + 64 - V % 64) % 64
def off (s : St) (x : SlotId) : Nat := offV s.version (s.obj x).version.ver

theorem offV_lt (V v) : offV V v < 64 := Nat.mod_lt _ (by decide)

theorem vcmp_off (V a b : Nat) (ha : a < 64) (hb : b < 64) (h1 : offV V a < offV V b + 32)
    (h2 : offV V b < offV V a + 32) :
    (vcmp a b = 0 ↔ offV V a = offV V b) ∧ (vcmp a b < 0 ↔ offV V a < offV V b) ∧
    (vcmp a b > 0 ↔ offV V b < offV V a) := by
  obtain ⟨c, hc, h⟩ := C30_version_order (V + offV V a) (V + offV V b) (by omega) (by omega)
  have e1 : (V + offV V a) % 64 = a % 64 := by unfold offV; omega
  have e2 : (V + offV V b) % 64 = b % 64 := by unfold offV; omega
  rw [e1, e2] at hc
  unfold vcmp
  rw [hc]
  simp only [Option.getD_some]
  omega

theorem vcmp_V (V b : Nat) (hb : b < 64) (h : offV V b < 32) :
    (vcmp V b = 0 ↔ offV V b = 0) ∧ (vcmp V b < 0 ↔ 0 < offV V b) ∧ ¬ vcmp V b > 0 := by
  have h0 : offV V (V % 64) = 0 := by unfold offV; omega
  have := vcmp_off V (V % 64) b (by omega) hb (by omega) (by omega)
  have e : vcmp (V % 64) b = vcmp V b := by unfold vcmp; simp
  rw [e] at this
  omega

theorem vcmp_V_stale (V b : Nat) (h : 32 < offV V b) : vcmp V b > 0 := by
  obtain ⟨c, hc, h⟩ := C30_version_order (V + 64) (V + offV V b) (by have := offV_lt V b; omega) (by have := offV_lt V b; omega)
  have e1 : (V + 64) % 64 = V % 64 := by omega
  have e2 : (V + offV V b) % 64 = b % 64 := by unfold offV; omega
  rw [e1, e2] at hc
  unfold vcmp
  rw [hc]
  simp only [Option.getD_some]
  have := offV_lt V b
  omega

theorem inuse_pos (s : St) (x : SlotId) (hv : (s.obj x).version.ver < 64) (hu : (s.obj x).used = true)
    (ho : off s x < 32) : inuse s (s.obj x) ≠ 0 := by
  have := vcmp_V s.version (s.obj x).version.ver hv ho
  unfold inuse
  rw [if_neg (by simp [hu]), if_neg this.2.2]
  split <;> simp

theorem inuse_used (s : St) (x : SlotId) (h : inuse s (s.obj x) ≠ 0) :
    (s.obj x).used = true ∧ off s x ≤ 32 := by
  unfold inuse at h
  split at h
  · simp at h
  · rename_i hu
    split at h
    · simp at h
    · rename_i hc
      refine ⟨by simpa using hu, ?_⟩
      apply Nat.le_of_not_lt
      intro hlt
      exact hc (vcmp_V_stale _ _ hlt)

/-- the part of the invariant that does not mention the program -/
structure Base (s : St) : Prop where
  even : s.version % 2 = 0
  ver : ∀ x, (s.obj x).version.ver < 64
  gen : ∀ x, (s.obj x).version.gen < 4
  nodup : s.gray.Nodup
  odd : ∀ x, (s.obj x).version.ver % 2 = 1 ↔ x ∈ s.gray
  gray : ∀ x ∈ s.gray, (s.obj x).used = true ∧ off s x < 24 - s.version % 24
  touch : ∀ x : SlotId, Layout.large x.1 = false → s.touch x.1 = false → (s.obj x).used = true → off s x = 0
  free : ∀ b, Layout.large b = false → s.nslots b = 0 → s.touch b = false
  placed : ∀ x : SlotId, (s.obj x).used = true → Layout.large x.1 = true ∨ s.nslots x.1 ≠ 0
  listed : ∀ b, s.listed b = true → Layout.large b = false ∧ s.nslots b ≠ 0

theorem off_odd (s : St) (hV : s.version % 2 = 0) (x) :
    off s x % 2 = (s.obj x).version.ver % 2 := by
  unfold off offV; omega

/-- what marking may do -/
structure Evolve (s s' : St) : Prop where
  phase : s'.phase = s.phase
  version : s'.version = s.version
  rset : s'.rset = s.rset
  nslots : s'.nslots = s.nslots
  curr : s'.curr = s.curr
  listed : s'.listed = s.listed
  used : ∀ x, (s'.obj x).used = (s.obj x).used
  kids : ∀ x, (s'.obj x).kids = (s.obj x).kids
  gray : ∀ x ∈ s.gray, x ∈ s'.gray
  touch : ∀ b, s.touch b = true → s'.touch b = true
  change : ∀ x, s'.obj x = s.obj x ∨ (off s x < off s' x ∧ x ∈ s'.gray)

theorem Evolve.refl (s : St) : Evolve s s :=
  ⟨rfl, rfl, rfl, rfl, rfl, rfl, fun _ => rfl, fun _ => rfl, fun _ h => h, fun _ h => h, fun _ => .inl rfl⟩

theorem Evolve.off_le {s s' : St} (e : Evolve s s') (x) : off s x ≤ off s' x := by
  rcases e.change x with h | h
  · unfold off; rw [h, e.version]; exact Nat.le_refl _
  · omega

theorem Evolve.trans {a b c : St} (h1 : Evolve a b) (h2 : Evolve b c) : Evolve a c where
  phase := h2.phase.trans h1.phase
  version := h2.version.trans h1.version
  rset := h2.rset.trans h1.rset
  nslots := h2.nslots.trans h1.nslots
  curr := h2.curr.trans h1.curr
  listed := h2.listed.trans h1.listed
  used x := (h2.used x).trans (h1.used x)
  kids x := (h2.kids x).trans (h1.kids x)
  gray x h := h2.gray x (h1.gray x h)
  touch b h := h2.touch b (h1.touch b h)
  change x := by
    have l1 := h1.off_le x
    have l2 := h2.off_le x
    rcases h1.change x with e1 | e1
    · rcases h2.change x with e2 | e2
      · exact .inl (e2.trans e1)
      · exact .inr ⟨by omega, e2.2⟩
    · exact .inr ⟨by omega, h2.gray x e1.2⟩

/-- the object had a chance to be marked with a lower bound -/
structure MinvOk (V : Nat) (m : Version) : Prop where
  odd : m.ver % 2 = 1
  ver : m.ver < 64
  gen : m.gen < 4
  le : offV V m.ver < 24 - V % 24

/-- the change markObject makes when it bumps an object that was not gray -/
def bump (s : St) (x : SlotId) (v : Version) : St :=
  (({ s.setVersion x v with gray := s.gray ++ [x] } : St)).setTouch x.1

theorem bump_spec (s : St) (x : SlotId) (v : Version) (hb : Base s) (hx : (s.obj x).used = true)
    (hn : (s.obj x).version.ver % 2 = 0) (hv : MinvOk s.version v) (hl : off s x < offV s.version v.ver) :
    Base (bump s x v) ∧ Evolve s (bump s x v) ∧ off (bump s x v) x = offV s.version v.ver := by
  have hng : x ∉ s.gray := fun h => by have := (hb.odd x).mpr h; omega
  have hobj : ∀ y, (bump s x v).obj y = if y = x then { s.obj x with version := v } else s.obj y := by
    intro y; simp [bump, St.setTouch, St.setVersion, St.setObj, upd]
  have hself : (bump s x v).obj x = { s.obj x with version := v } := by rw [hobj, if_pos rfl]
  have hoth : ∀ y, y ≠ x → (bump s x v).obj y = s.obj y := fun y h => by rw [hobj, if_neg h]
  have hoff : off (bump s x v) x = offV s.version v.ver := by
    unfold off; rw [hself]; rfl
  have hoffo : ∀ y, y ≠ x → off (bump s x v) y = off s y := fun y h => by
    unfold off; rw [hoth y h]; rfl
  have hg : (bump s x v).gray = s.gray ++ [x] := rfl
  have ht : ∀ b, (bump s x v).touch b = if b = x.1 then true else s.touch b := fun b => by
    simp [bump, St.setTouch, St.setVersion, St.setObj, upd]
  have hns : (bump s x v).nslots = s.nslots := rfl
  refine ⟨?_, ?_, hoff⟩
  · constructor
    · exact hb.even
    · intro y; by_cases e : y = x
      · subst e; rw [hself]; exact hv.ver
      · rw [hoth y e]; exact hb.ver y
    · intro y; by_cases e : y = x
      · subst e; rw [hself]; exact hv.gen
      · rw [hoth y e]; exact hb.gen y
    · rw [hg]; exact List.nodup_append.mpr ⟨hb.nodup, by simp, by
        intro a ha b hb' e; simp at hb'; subst hb'; subst e; exact hng ha⟩
    · intro y; rw [hg]; by_cases e : y = x
      · subst e; rw [hself]; simp [hv.odd]
      · rw [hoth y e, hb.odd y]; simp [e]
    · intro y hy; rw [hg] at hy
      by_cases e : y = x
      · subst e; rw [hself, hoff]; exact ⟨hx, hv.le⟩
      · rw [hoth y e, hoffo y e]; exact hb.gray y (by simpa [e] using hy)
    · intro y hy htt hu; rw [ht] at htt
      by_cases e : y.1 = x.1
      · simp [e] at htt
      · rw [if_neg e] at htt
        have e' : y ≠ x := fun h => e (by rw [h])
        rw [hoth y e'] at hu
        rw [hoffo y e']; exact hb.touch y hy htt hu
    · intro b hbl hnb; rw [hns] at hnb; rw [ht]
      by_cases e : b = x.1
      · subst e
        rcases hb.placed x hx with h | h
        · simp [h] at hbl
        · exact absurd hnb h
      · rw [if_neg e]; exact hb.free b hbl hnb
    · intro y hu; rw [hns]
      by_cases e : y = x
      · subst e; exact hb.placed y hx
      · rw [hoth y e] at hu; exact hb.placed y hu
    · exact hb.listed
  · constructor <;> try rfl
    · intro y; by_cases e : y = x
      · subst e; rw [hself]
      · rw [hoth y e]
    · intro y; by_cases e : y = x
      · subst e; rw [hself]
      · rw [hoth y e]
    · intro y hy; rw [hg]; simp [hy]
    · intro b h; rw [ht]; split <;> simp [h]
    · intro y; by_cases e : y = x
      · subst e; right; rw [hoff, hg]; simp [hl]
      · left; exact hoth y e

/-- raising an object that is already gray -/
theorem raise_spec (s : St) (x : SlotId) (v : Version) (hb : Base s)
    (hn : (s.obj x).version.ver % 2 = 1) (hv : MinvOk s.version v) (hl : off s x < offV s.version v.ver) :
    Base (s.setVersion x v) ∧ Evolve s (s.setVersion x v) ∧ off (s.setVersion x v) x = offV s.version v.ver := by
  have hgx : x ∈ s.gray := (hb.odd x).mp hn
  have hobj : ∀ y, (s.setVersion x v).obj y = if y = x then { s.obj x with version := v } else s.obj y := by
    intro y; simp [St.setVersion, St.setObj, upd]
  have hself : (s.setVersion x v).obj x = { s.obj x with version := v } := by rw [hobj, if_pos rfl]
  have hoth : ∀ y, y ≠ x → (s.setVersion x v).obj y = s.obj y := fun y h => by rw [hobj, if_neg h]
  have hoff : off (s.setVersion x v) x = offV s.version v.ver := by
    unfold off; rw [hself]; rfl
  have hoffo : ∀ y, y ≠ x → off (s.setVersion x v) y = off s y := fun y h => by
    unfold off; rw [hoth y h]; rfl
  refine ⟨?_, ?_, hoff⟩
  · constructor
    · exact hb.even
    · intro y; by_cases e : y = x
      · subst e; rw [hself]; exact hv.ver
      · rw [hoth y e]; exact hb.ver y
    · intro y; by_cases e : y = x
      · subst e; rw [hself]; exact hv.gen
      · rw [hoth y e]; exact hb.gen y
    · exact hb.nodup
    · intro y; show _ ↔ y ∈ s.gray; by_cases e : y = x
      · subst e; rw [hself]; simp [hv.odd, hgx]
      · rw [hoth y e]; exact hb.odd y
    · intro y hy
      have hy : y ∈ s.gray := hy
      by_cases e : y = x
      · subst e; rw [hself, hoff]; exact ⟨(hb.gray y hy).1, hv.le⟩
      · rw [hoth y e, hoffo y e]; exact hb.gray y hy
    · intro y hy htt hu
      by_cases e : y = x
      · subst e
        have := hb.touch y hy htt (hb.gray y hgx).1
        have := off_odd s hb.even y
        omega
      · rw [hoth y e] at hu
        rw [hoffo y e]; exact hb.touch y hy htt hu
    · exact hb.free
    · intro y hu
      by_cases e : y = x
      · subst e; exact hb.placed y (hb.gray y hgx).1
      · rw [hoth y e] at hu; exact hb.placed y hu
    · exact hb.listed
  · constructor <;> try rfl
    · intro y; by_cases e : y = x
      · subst e; rw [hself]
      · rw [hoth y e]
    · intro y; by_cases e : y = x
      · subst e; rw [hself]
      · rw [hoth y e]
    · exact fun y hy => hy
    · exact fun b h => h
    · intro y; by_cases e : y = x
      · subst e; right; rw [hoff]; exact ⟨hl, hgx⟩
      · left; exact hoth y e

/-- what a mark with bound `minv` guarantees -/
structure Marked (s s' : St) (minv : Option Version) : Prop where
  base : Base s'
  ev : Evolve s s'
  keep : ∀ y, (s.obj y).version.ver % 2 = 1 → (∀ m, minv = some m → offV s.version m.ver ≤ off s y) →
    s'.obj y = s.obj y

theorem Marked.refl (s : St) (minv) (h : Base s) : Marked s s minv := ⟨h, Evolve.refl s, fun _ _ _ => rfl⟩

/-- the conclusion for the marked object -/
def Reached (s' : St) (x : SlotId) (minv : Option Version) : Prop :=
  0 < off s' x ∧ ∀ m, minv = some m → offV s'.version m.ver ≤ off s' x

theorem next_ok (s : St) (hb : Base s) (x : SlotId) (hx : off s x = 0) :
    ∃ g v, nextVersion (s.obj x).version.gen s.version = some (g, v) ∧ MinvOk s.version ⟨g, v⟩ ∧
      0 < offV s.version v := by
  obtain ⟨g, inc, e, hg, -, hi, hd, ho⟩ := C30_next_version_window (s.obj x).version.gen s.version (hb.gen x) hb.even
  refine ⟨g, _, e, ⟨by simp only; omega, Nat.mod_lt _ (by decide), hg, ?_⟩, ?_⟩
  · simp only [List.mem_cons, List.not_mem_nil, or_false] at hi
    have hx1 : (s.version + inc - 1) % 64 < 64 := Nat.mod_lt _ (by decide)
    have hx2 : inc ≤ 24 - s.version % 24 := by
      clear hx1 ho e
      rcases hi with rfl | rfl | rfl | rfl <;> omega
    have hx3 : (s.version + inc - 1) % 64 = (s.version % 64 + inc - 1) % 64 := by omega
    unfold offV; simp only
    rw [hx3]
    generalize s.version % 64 = w at *
    generalize s.version % 24 = z at *
    omega
  · simp only [List.mem_cons, List.not_mem_nil, or_false] at hi
    have := hb.even
    unfold offV; omega

theorem markObject_spec (s : St) (x : SlotId) (minv : Option Version) (hb : Base s)
    (hx : inuse s (s.obj x) ≠ 0) (hm : ∀ m, minv = some m → MinvOk s.version m) :
    ∃ s', markObject s x minv = some s' ∧ Marked s s' minv ∧ (off s x < 32 → Reached s' x minv) := by
  obtain ⟨hu, ho⟩ := inuse_used s x hx
  have hparity := off_odd s hb.even x
  unfold markObject
  have hok : minvOk minv = true := by
    cases minv with
    | none => rfl
    | some m => simp [minvOk, (hm m rfl).odd]
  rw [if_pos hok]
  simp only
  by_cases hodd : (s.obj x).version.ver % 2 = 1
  · rw [if_pos hodd]
    have hgr := hb.gray x ((hb.odd x).mp hodd)
    cases minv with
    | none =>
      refine ⟨s, rfl, Marked.refl s none hb, fun _ => ⟨by omega, by simp⟩⟩
    | some m =>
      have hmm := hm m rfl
      have hmle := hmm.le
      have hc := vcmp_off s.version m.ver (s.obj x).version.ver hmm.ver (hb.ver x)
        (by omega) (by have := hgr.2; unfold off at this; omega)
      simp only
      by_cases hgt : vcmp m.ver (s.obj x).version.ver > 0
      · rw [if_pos hgt]
        have hlt : off s x < offV s.version m.ver := hc.2.2.mp hgt
        have hr := raise_spec s x m hb hodd hmm hlt
        refine ⟨_, rfl, ⟨hr.1, hr.2.1, ?_⟩, fun _ => ⟨by rw [hr.2.2]; omega, ?_⟩⟩
        · intro y hy hle
          have hle := hle m rfl
          by_cases e : y = x
          · subst e; omega
          · simp [St.setVersion, St.setObj, upd, e]
        · intro m' e; cases e; rw [hr.2.2, hr.2.1.version]; exact Nat.le_refl _
      · rw [if_neg hgt]
        refine ⟨s, rfl, Marked.refl s _ hb, fun _ => ⟨by omega, ?_⟩⟩
        intro m' e; cases e
        exact Nat.le_of_not_lt (fun h => hgt (hc.2.2.mpr h))
  · rw [if_neg hodd]
    have hev : (s.obj x).version.ver % 2 = 0 := by omega
    have hver := hb.ver x
    have hzero : (s.obj x).version.ver % 64 = s.version % 64 ↔ off s x = 0 := by
      unfold off offV; omega
    have key : ∀ v : Version, MinvOk s.version v → off s x < offV s.version v.ver →
        (∀ m, minv = some m → offV s.version m.ver ≤ offV s.version v.ver) →
        Marked s (bump s x v) minv ∧ Reached (bump s x v) x minv := by
      intro v hv hl hle
      have hr := bump_spec s x v hb hu hev hv hl
      refine ⟨⟨hr.1, hr.2.1, ?_⟩, by rw [hr.2.2]; omega, ?_⟩
      · intro y hy _
        by_cases e : y = x
        · subst e; omega
        · simp [bump, St.setTouch, St.setVersion, St.setObj, upd, e]
      · intro m e; rw [hr.2.2, hr.2.1.version]; exact hle m e
    by_cases hw : off s x = 0
    · rw [if_pos (hzero.mpr hw)]
      obtain ⟨g, v, e, hok', hpos⟩ := next_ok s hb x hw
      rw [e]
      simp only [Option.map_some, Option.bind_eq_bind, Option.bind_some]
      cases minv with
      | none =>
        simp only
        rw [if_pos trivial]
        have := key ⟨g, v⟩ hok' (by show _ < offV s.version v; omega) (by simp)
        exact ⟨_, rfl, this.1, fun _ => this.2⟩
      | some m =>
        have hmm := hm m rfl
        have hc := vcmp_off s.version m.ver v hmm.ver hok'.ver
          (by have := hmm.le; omega) (by have := hok'.le; simp only at this; omega)
        simp only
        by_cases hgt : vcmp m.ver v > 0
        · rw [if_pos hgt]; simp only; rw [if_pos trivial]
          have := key m hmm (by have := hc.2.2.mp hgt; omega) (by intro m' e; cases e; exact Nat.le_refl _)
          exact ⟨_, rfl, this.1, fun _ => this.2⟩
        · rw [if_neg hgt]; simp only; rw [if_pos trivial]
          have := key ⟨g, v⟩ hok' (by show _ < offV s.version v; omega) (by
            intro m' e; cases e
            exact Nat.le_of_not_lt (fun h => hgt (hc.2.2.mpr h)))
          exact ⟨_, rfl, this.1, fun _ => this.2⟩
    · rw [if_neg (fun h => hw (hzero.mp h))]
      simp only [Option.bind_eq_bind, Option.bind_some]
      cases minv with
      | none =>
        simp only
        rw [if_neg (by simp)]
        exact ⟨s, rfl, Marked.refl s _ hb, fun _ => ⟨by omega, by simp⟩⟩
      | some m =>
        have hmm := hm m rfl
        have hmo : 1 ≤ offV s.version m.ver := by
          have := hmm.odd; have := hb.even; unfold offV; omega
        have hmle := hmm.le
        have hc := vcmp_off s.version m.ver (s.obj x).version.ver hmm.ver hver
          (by omega) (by unfold off at ho; omega)
        simp only
        by_cases hgt : vcmp m.ver (s.obj x).version.ver > 0
        · rw [if_pos hgt]; simp only; rw [if_pos trivial]
          have := key m hmm (hc.2.2.mp hgt) (by intro m' e; cases e; exact Nat.le_refl _)
          exact ⟨_, rfl, this.1, fun _ => this.2⟩
        · rw [if_neg hgt]; simp only; rw [if_neg (by simp)]
          refine ⟨s, rfl, Marked.refl s _ hb, fun _ => ⟨by omega, ?_⟩⟩
          intro m' e; cases e
          exact Nat.le_of_not_lt (fun h => hgt (hc.2.2.mpr h))

theorem gcMark_spec (s : St) (x : SlotId) (minv : Option Version) (hb : Base s)
    (hm : ∀ m, minv = some m → MinvOk s.version m) :
    ∃ s', gcMark s x minv = some s' ∧ Marked s s' minv ∧
      ((s.obj x).used = true → off s x < 32 → Reached s' x minv) := by
  unfold gcMark
  by_cases hc : checkPointer s x = true
  · rw [if_pos hc]
    have : inuse s (s.obj x) ≠ 0 := by
      unfold checkPointer at hc
      split at hc
      · simp at hc
      · simpa using hc
    obtain ⟨s', e, h1, h2⟩ := markObject_spec s x minv hb this hm
    exact ⟨s', e, h1, fun _ => h2⟩
  · rw [if_neg hc]
    refine ⟨s, rfl, Marked.refl s _ hb, ?_⟩
    intro hu ho
    exfalso
    apply hc
    unfold checkPointer
    rw [if_neg]
    · simpa using inuse_pos s x (hb.ver x) hu ho
    · intro ⟨h1, h2⟩
      rcases hb.placed x hu with h | h
      · simp [h] at h1
      · exact h h2

theorem Reached.mono {s s' : St} {x minv} (h : Reached s x minv) (e : Evolve s s') : Reached s' x minv := by
  have := e.off_le x
  refine ⟨by have := h.1; omega, fun m hm => ?_⟩
  have := h.2 m hm
  rw [e.version]; omega

theorem Marked.trans {a b c : St} {minv} (h1 : Marked a b minv) (h2 : Marked b c minv) : Marked a c minv := by
  refine ⟨h2.base, h1.ev.trans h2.ev, ?_⟩
  intro y hy hle
  have e1 := h1.keep y hy hle
  have e2 := h2.keep y (by rw [e1]; exact hy) (by
    intro m hm; have := hle m hm; unfold off at *; rw [e1, h1.ev.version]; exact this)
  rw [e2, e1]

theorem markAll_spec (minv : Option Version) (l : List (Option SlotId)) (s : St) (hb : Base s)
    (hm : ∀ m, minv = some m → MinvOk s.version m) :
    ∃ s', markAll s minv l = some s' ∧ Marked s s' minv ∧
      ∀ x, some x ∈ l → (s.obj x).used = true → off s x < 32 → Reached s' x minv := by
  induction l generalizing s with
  | nil => exact ⟨s, rfl, Marked.refl s _ hb, by simp⟩
  | cons o r ih =>
    cases o with
    | none =>
      obtain ⟨s', e, h1, h2⟩ := ih s hb hm
      exact ⟨s', by simpa [markAll] using e, h1, by intro x hx; exact h2 x (by simpa using hx)⟩
    | some y =>
      obtain ⟨s1, e1, m1, r1⟩ := gcMark_spec s y minv hb hm
      obtain ⟨s2, e2, m2, r2⟩ := ih s1 m1.base (by intro m h; rw [m1.ev.version]; exact hm m h)
      refine ⟨s2, by simp [markAll, e1, e2], m1.trans m2, ?_⟩
      intro x hx hu ho
      by_cases exy : x = y
      · subst exy; exact (r1 hu ho).mono m2.ev
      · have hx : some x ∈ r := by simpa [exy] using hx
        rcases m1.ev.change x with hc | hc
        · refine r2 x hx (by rw [hc]; exact hu) ?_
          unfold off at *; rw [hc, m1.ev.version]; exact ho
        · have := m1.base.gray x hc.2
          exact r2 x hx this.1 (by omega)

/-- what the remembered-set pass guarantees; the remembered set itself changes -/
theorem gcRSetLoop_spec (l : List SlotId) (s : St) (kept : List SlotId) (hb : Base s)
    (hl : ∀ p ∈ l, (s.obj p).used = true ∧ off s p ≤ 24) :
    ∃ s1 s', gcRSetLoop s kept l = some s' ∧ Marked s s1 none ∧ s' = { s1 with rset := s'.rset } ∧
      (∀ p ∈ l, 0 < off s p → p ∈ s'.rset ∧
        ∀ x, some x ∈ (s.obj p).kids → (s.obj x).used = true → off s x < 32 → 0 < off s' x) ∧
      (∀ p ∈ kept, p ∈ s'.rset) ∧
      (∀ p ∈ s'.rset, p ∈ kept ∨ (p ∈ l ∧ 0 < off s' p)) := by
  induction l generalizing s kept with
  | nil =>
    refine ⟨s, _, rfl, Marked.refl s _ hb, rfl, by simp, by simp, ?_⟩
    intro p hp; left; simpa using hp
  | cons p r ih =>
    have hp := hl p (by simp)
    have hc := vcmp_V s.version (s.obj p).version.ver (hb.ver p) (by have := hp.2; unfold off at this; omega)
    unfold gcRSetLoop
    by_cases hz : vcmp s.version (s.obj p).version.ver ≥ 0
    · rw [if_pos hz]
      obtain ⟨s1, s', e, m, hs, h1, h2, h3⟩ := ih s kept hb (fun q hq => hl q (by simp [hq]))
      refine ⟨s1, s', e, m, hs, ?_, h2, ?_⟩
      · intro q hq hpos
        rcases List.mem_cons.mp hq with rfl | hq
        · exfalso; have := hc.2.1.mpr hpos; omega
        · exact h1 q hq hpos
      · intro q hq
        rcases h3 q hq with h | h
        · exact .inl h
        · exact .inr ⟨by simp [h.1], h.2⟩
    · rw [if_neg hz]
      have hpos : 0 < off s p := hc.2.1.mp (by omega)
      obtain ⟨sa, ea, ma, ra⟩ := markAll_spec none (s.obj p).kids s hb (by simp)
      have hgo : ∀ q, (s.obj q).used = true → off s q ≤ 24 → (sa.obj q).used = true ∧ off sa q ≤ 24 := by
        intro q hu ho
        refine ⟨by rw [ma.ev.used]; exact hu, ?_⟩
        rcases ma.ev.change q with h | h
        · unfold off at *; rw [h, ma.ev.version]; exact ho
        · have := ma.base.gray q h.2; omega
      obtain ⟨s1, s', e, m, hs, h1, h2, h3⟩ := ih sa (p :: kept) ma.base
        (fun q hq => hgo q (hl q (by simp [hq])).1 (hl q (by simp [hq])).2)
      have hoff' : ∀ q, off s' q = off s1 q := by intro q; rw [hs]; rfl
      refine ⟨s1, s', by simp [ea, e], ma.trans m, hs, ?_, ?_, ?_⟩
      · intro q hq hqpos
        rcases List.mem_cons.mp hq with rfl | hq
        · refine ⟨h2 q (by simp), ?_⟩
          intro x hx hu ho
          have := ((ra x hx hu ho).mono m.ev).1
          rw [hoff']; exact this
        · have := ma.ev.off_le q
          refine ⟨(h1 q hq (by omega)).1, ?_⟩
          intro x hx hu ho
          have hxle := ma.ev.off_le x
          by_cases hx0 : 0 < off sa x
          · rw [hoff']; have := m.ev.off_le x; omega
          · refine (h1 q hq (by omega)).2 x (by rw [ma.ev.kids]; exact hx) (by rw [ma.ev.used]; exact hu) (by omega)
      · intro q hq; exact h2 q (by simp [hq])
      · intro q hq
        rcases h3 q hq with h | h
        · rcases List.mem_cons.mp h with rfl | h
          · right; refine ⟨by simp, ?_⟩
            rw [hoff']; have := ma.ev.off_le q; have := m.ev.off_le q; omega
          · exact .inl h
        · exact .inr ⟨by simp [h.1], h.2⟩

/-! ### The invariant -/

/-- reachable from the gray queue through white objects -/
inductive GW (s : St) : SlotId → Prop where
  | gray {a} (h : a ∈ s.gray) : GW s a
  | step {w a} (hw : GW s w) (h : some a ∈ (s.obj w).kids) (hu : (s.obj a).used = true) (ho : off s a = 0) : GW s a

/-- how far ahead of the version an object may be: no object skips a cycle whose number is a multiple
of 24 -/
def lim (s : St) : Nat := if s.phase = .none then (24 - s.version % 24) % 24 else 24 - s.version % 24

theorem lim_eq {s s' : St} (h1 : s'.phase = s.phase) (h2 : s'.version = s.version) : lim s' = lim s := by
  unfold lim; rw [h1, h2]

theorem lim_le (s : St) : lim s ≤ 24 - s.version % 24 := by unfold lim; split <;> omega

structure Core (s : St) (held : List SlotId) (G : SlotId → Prop) : Prop where
  base : Base s
  held : ∀ x ∈ held, G x
  live : ∀ a, G a → (s.obj a).used = true ∧ off s a ≤ lim s ∧ ∀ b, some b ∈ (s.obj a).kids → G b
  rs : ∀ p ∈ s.rset, (s.obj p).used = true ∧ off s p ≤ lim s ∧ (s.phase ≠ .none → 0 < off s p)
  quiet : s.phase ≠ .incr → s.gray = []
  chain : s.phase = .incr → ∀ a, G a → off s a = 0 → GW s a
  black : s.phase = .sweep → ∀ a, G a → 0 < off s a

theorem Core.live24 {s held G} (h : Core s held G) {a} (ha : G a) : off s a ≤ 24 := by
  have := h.live a ha; have := lim_le s; omega

theorem Core.rs24 {s held G} (h : Core s held G) {a} (ha : a ∈ s.rset) : off s a ≤ 24 := by
  have := h.rs a ha; have := lim_le s; omega

/-- an old object with a younger field is remembered -/
def genOK (s : St) (a b : SlotId) : Prop :=
  off s a % 2 = 0 → off s a ≤ off s b + off s b % 2 ∨ a ∈ s.rset ∨ (s.phase ≠ .none ∧ off s a = 2)

structure Inv (s : St) (held : List SlotId) (G : SlotId → Prop) : Prop extends Core s held G where
  old : ∀ a b, G a → some b ∈ (s.obj a).kids → genOK s a b

theorem off_eq {s s' : St} {x} (h : s'.obj x = s.obj x) (hv : s'.version = s.version) : off s' x = off s x := by
  unfold off; rw [h, hv]

theorem GW.evolve {s s' : St} (e : Evolve s s') {a} (h : GW s a) : GW s' a := by
  induction h with
  | gray h => exact .gray (e.gray _ h)
  | @step w a hw h hu ho ih =>
    rcases e.change a with hc | hc
    · exact .step ih (by rw [e.kids]; exact h) (by rw [e.used]; exact hu) (by rw [off_eq hc e.version]; exact ho)
    · exact .gray hc.2

theorem genOK.evolve {s s' : St} (hb : Base s') (e : Evolve s s') {a b} (h : genOK s a b) : genOK s' a b := by
  intro hev
  have hoa : off s' a = off s a := by
    rcases e.change a with hc | hc
    · exact off_eq hc e.version
    · have := (hb.odd a).mpr hc.2; have := off_odd s' hb.even a; omega
  rw [hoa, e.rset, e.phase]
  rw [hoa] at hev
  rcases h hev with h | h
  · left
    rcases e.change b with hc | hc
    · rw [off_eq hc e.version]; exact h
    · have h1 := (hb.odd b).mpr hc.2; have h2 := off_odd s' hb.even b; have := hc.1; omega
  · exact .inr h

/-- during marking, marking preserves the core invariant -/
theorem Core.evolve {s s' : St} {held G} (h : Core s held G) (hp : s.phase = .incr) (hb : Base s') (e : Evolve s s') :
    Core s' held G where
  base := hb
  held := h.held
  live a ha := by
    obtain ⟨h1, h2, h3⟩ := h.live a ha
    rw [lim_eq e.phase e.version]
    refine ⟨by rw [e.used]; exact h1, ?_, fun b hk => h3 b (by rw [← e.kids]; exact hk)⟩
    rcases e.change a with hc | hc
    · rw [off_eq hc e.version]; exact h2
    · have := hb.gray a hc.2; rw [e.version] at this; unfold lim; rw [hp]; simp; omega
  rs p hpr := by
    rw [e.rset] at hpr
    obtain ⟨h1, h2, h3⟩ := h.rs p hpr
    rw [lim_eq e.phase e.version]
    refine ⟨by rw [e.used]; exact h1, ?_, fun _ => ?_⟩
    · rcases e.change p with hc | hc
      · rw [off_eq hc e.version]; exact h2
      · have := hb.gray p hc.2; rw [e.version] at this; unfold lim; rw [hp]; simp; omega
    · have := e.off_le p; have := h3 (by rw [hp]; simp); omega
  quiet hne := by rw [e.phase] at hne; exact absurd hp hne
  chain _ a ha ho := by
    have hle := e.off_le a
    exact (h.chain hp a ha (by omega)).evolve e
  black hs := by rw [e.phase, hp] at hs; simp at hs

theorem Inv.evolve {s s' : St} {held G} (h : Inv s held G) (hp : s.phase = .incr) (hb : Base s') (e : Evolve s s') :
    Inv s' held G :=
  { h.toCore.evolve hp hb e with
    old := fun a b ha hk => (h.old a b ha (by rw [← e.kids]; exact hk)).evolve hb e }

theorem Inv.mono {s : St} {held held' G} (h : Inv s held G) (hh : ∀ x ∈ held', G x) : Inv s held' G :=
  { h with held := hh }

/-! ### stores -/

theorem addRSet_fields (s : St) (a) : (addRSet s a).obj = s.obj ∧ (addRSet s a).version = s.version ∧
    (addRSet s a).phase = s.phase ∧ (addRSet s a).gray = s.gray ∧ (addRSet s a).touch = s.touch ∧
    (addRSet s a).nslots = s.nslots ∧ (addRSet s a).listed = s.listed ∧
    (∀ p, p ∈ (addRSet s a).rset ↔ p = a ∨ p ∈ s.rset) := by
  unfold addRSet
  split
  · rename_i h
    exact ⟨rfl, rfl, rfl, rfl, rfl, rfl, rfl, fun p => ⟨.inr, fun h' => h'.elim (fun e => e ▸ h) id⟩⟩
  · exact ⟨rfl, rfl, rfl, rfl, rfl, rfl, rfl, fun p => by simp⟩

theorem Base.congr {s s' : St} (hb : Base s) (h1 : s'.obj = s.obj) (h2 : s'.version = s.version)
    (h3 : s'.gray = s.gray) (h4 : s'.touch = s.touch) (h5 : s'.nslots = s.nslots) (h6 : s'.listed = s.listed) :
    Base s' := by
  have ho : ∀ x, off s' x = off s x := fun x => off_eq (by rw [h1]) h2
  constructor
  · rw [h2]; exact hb.even
  · rw [h1]; exact hb.ver
  · rw [h1]; exact hb.gen
  · rw [h3]; exact hb.nodup
  · rw [h1, h3]; exact hb.odd
  · intro x; rw [h3, h1, ho, h2]; exact hb.gray x
  · intro x; rw [h4, h1, ho]; exact hb.touch x
  · rw [h4, h5]; exact hb.free
  · rw [h1, h5]; exact hb.placed
  · rw [h6, h5]; exact hb.listed

theorem GW.congr {s s' : St} (h1 : s'.obj = s.obj) (h2 : s'.version = s.version)
    (h3 : ∀ x ∈ s.gray, x ∈ s'.gray) {a} (h : GW s a) : GW s' a := by
  induction h with
  | gray h => exact .gray (h3 _ h)
  | step hw h hu ho ih =>
    exact .step ih (by rw [h1]; exact h) (by rw [h1]; exact hu) (by rw [off_eq (by rw [h1]) h2]; exact ho)

theorem Core.addRSet {s : St} {held G} (h : Core s held G) (a) (ha : G a) (hpos : 0 < off s a) :
    Core (addRSet s a) held G := by
  obtain ⟨f1, f2, f3, f4, f5, f6, f7, f8⟩ := addRSet_fields s a
  have ho : ∀ x, off (GC.addRSet s a) x = off s x := fun x => off_eq (by rw [f1]) f2
  constructor
  · exact h.base.congr f1 f2 f4 f5 f6 f7
  · exact h.held
  · intro x hx; rw [f1, ho, lim_eq f3 f2]; exact h.live x hx
  · intro p hp; rw [f1, ho, f3, lim_eq f3 f2]
    rcases (f8 p).mp hp with rfl | hp
    · exact ⟨(h.live p ha).1, (h.live p ha).2.1, fun _ => hpos⟩
    · exact h.rs p hp
  · rw [f3, f4]; exact h.quiet
  · intro hp x hx; rw [f3] at hp; rw [ho]; intro h0
    exact (h.chain hp x hx h0).congr f1 f2 (by rw [f4]; exact fun _ h => h)
  · intro hp x hx; rw [f3] at hp; rw [ho]; exact h.black hp x hx

/-- the state after the plain write -/
theorem setKids_core {s : St} {held G} (h : Core s held G) (a i) (v : Option SlotId) (ha : G a)
    (hv : ∀ x, v = some x → G x)
    (hold : s.phase = .incr → ∀ x, (s.obj a).kids[i]? = some (some x) → 0 < off s x) :
    Core (s.setObj a { s.obj a with kids := (s.obj a).kids.set i v }) held G := by
  generalize hs' : s.setObj a { s.obj a with kids := (s.obj a).kids.set i v } = s'
  have hobj : ∀ x, s'.obj x = if x = a then { s.obj a with kids := (s.obj a).kids.set i v } else s.obj x := by
    intro x; subst hs'; simp [St.setObj, upd]
  have hver : ∀ x, (s'.obj x).version = (s.obj x).version := by
    intro x; rw [hobj]; split <;> simp_all
  have hused : ∀ x, (s'.obj x).used = (s.obj x).used := by
    intro x; rw [hobj]; split <;> simp_all
  have e1 : s'.version = s.version := by subst hs'; rfl
  have e2 : s'.gray = s.gray := by subst hs'; rfl
  have e3 : s'.touch = s.touch := by subst hs'; rfl
  have e4 : s'.nslots = s.nslots := by subst hs'; rfl
  have e5 : s'.listed = s.listed := by subst hs'; rfl
  have e6 : s'.phase = s.phase := by subst hs'; rfl
  have e7 : s'.rset = s.rset := by subst hs'; rfl
  have ho : ∀ x, off s' x = off s x := by intro x; unfold off; rw [hver, e1]
  have hb := h.base
  have hself : ∀ x, x ≠ a → (s'.obj x).kids = (s.obj x).kids := by intro x hx; rw [hobj, if_neg hx]
  have hkid : (s'.obj a).kids = (s.obj a).kids.set i v := by rw [hobj, if_pos rfl]
  constructor
  · constructor
    · rw [e1]; exact hb.even
    · intro x; rw [hver]; exact hb.ver x
    · intro x; rw [hver]; exact hb.gen x
    · rw [e2]; exact hb.nodup
    · intro x; rw [hver, e2]; exact hb.odd x
    · intro x; rw [hused, e2, ho, e1]; exact hb.gray x
    · intro x; rw [hused, e3, ho]; exact hb.touch x
    · rw [e3, e4]; exact hb.free
    · intro x; rw [hused, e4]; exact hb.placed x
    · rw [e5, e4]; exact hb.listed
  · exact h.held
  · intro x hx; rw [hused, ho, lim_eq e6 e1]
    obtain ⟨h1, h2, h3⟩ := h.live x hx
    refine ⟨h1, h2, ?_⟩
    intro b hb'
    by_cases e : x = a
    · subst e; rw [hkid] at hb'
      rcases List.mem_or_eq_of_mem_set hb' with h | h
      · exact h3 b h
      · exact hv b h.symm
    · rw [hself x e] at hb'; exact h3 b hb'
  · intro p hp; rw [e7] at hp; rw [hused, ho, lim_eq e6 e1, e6]; exact h.rs p hp
  · rw [e6, e2]; exact h.quiet
  · intro hp x hx h0
    rw [e6] at hp; rw [ho] at h0
    have := h.chain hp x hx h0
    clear hx h0
    induction this with
    | gray h => exact .gray (by rw [e2]; exact h)
    | @step w b hw hk hu ho' ih =>
      refine .step ih ?_ (by rw [hused]; exact hu) (by rw [ho]; exact ho')
      by_cases e : w = a
      · subst e
        rw [hkid]
        obtain ⟨j, hj⟩ := List.getElem?_of_mem hk
        by_cases eij : i = j
        · subst eij
          have := hold hp b hj
          omega
        · have : ((s.obj w).kids.set i v)[j]? = some (some b) := by
            rw [List.getElem?_set_ne eij]; exact hj
          exact List.mem_of_getElem? this
      · rw [hself w e]; exact hk
  · intro hp x hx; rw [e6] at hp; rw [ho]; exact h.black hp x hx

theorem store_spec {s : St} {held G} (h : Inv s held G) (a i) (v : Option SlotId) (ha : G a)
    (hv : ∀ x, v = some x → G x) :
    ∃ s', storeField s a i v = some s' ∧ Inv s' held G ∧
      (∀ x, (s'.obj x).used = (s.obj x).used) ∧
      (∀ x, (s'.obj x).kids = if x = a then (s.obj a).kids.set i v else (s.obj x).kids) := by
  -- the deletion barrier
  have step1 : ∃ s1, markOld s a i = some s1 ∧ Inv s1 held G ∧ Evolve s s1 ∧
      (s.phase = .incr → ∀ x, (s.obj a).kids[i]? = some (some x) → 0 < off s1 x) := by
    unfold markOld
    by_cases hp : s.phase = .incr
    · rw [if_pos hp]
      split
      · rename_i old he
        have hold : G old := (h.live a ha).2.2 old (List.mem_of_getElem? he)
        obtain ⟨s1, e1, m1, r1⟩ := gcMark_spec s old none h.base (by simp)
        refine ⟨s1, e1, h.evolve hp m1.base m1.ev, m1.ev, ?_⟩
        intro _ x hx
        rw [he] at hx; cases hx
        exact (r1 (h.live old hold).1 (by have := h.live24 hold; omega)).1
      · rename_i hne
        refine ⟨s, rfl, h, Evolve.refl s, ?_⟩
        intro _ x hx; exact absurd hx (hne x)
    · rw [if_neg hp]
      exact ⟨s, rfl, h, Evolve.refl s, fun h' => absurd h' hp⟩
  obtain ⟨s1, e1, i1, ev1, hold⟩ := step1
  -- the write
  have i2 := setKids_core i1.toCore a i v ha hv (by
    intro hp x hx; rw [ev1.kids] at hx; rw [ev1.phase] at hp; exact hold hp x hx)
  generalize hs2 : s1.setObj a { s1.obj a with kids := (s1.obj a).kids.set i v } = s2 at i2
  have hobj : ∀ x, s2.obj x = if x = a then { s1.obj a with kids := (s1.obj a).kids.set i v } else s1.obj x := by
    intro x; subst hs2; simp [St.setObj, upd]
  have hused2 : ∀ x, (s2.obj x).used = (s.obj x).used := by
    intro x; rw [hobj]; split
    · rename_i e; subst e; exact ev1.used x
    · exact ev1.used x
  have hkids2 : ∀ x, (s2.obj x).kids = if x = a then (s.obj a).kids.set i v else (s.obj x).kids := by
    intro x; rw [hobj]; split
    · simp [ev1.kids]
    · exact ev1.kids x
  have ho2 : ∀ x, off s2 x = off s1 x := by
    intro x; unfold off; rw [hobj]; subst hs2; split
    · rename_i e; subst e; rfl
    · rfl
  have hr2 : s2.rset = s1.rset := by subst hs2; rfl
  have hp2 : s2.phase = s1.phase := by subst hs2; rfl
  have hold2 : ∀ x b, G x → some b ∈ (s2.obj x).kids → genOK s2 x b ∨ (x = a ∧ v = some b) := by
    intro x b hx hb
    have keep : some b ∈ (s1.obj x).kids → genOK s2 x b := by
      intro hk
      have := i1.old x b hx hk
      unfold genOK at *
      rw [ho2, ho2, hr2, hp2]; exact this
    by_cases e : x = a
    · subst e
      rw [hkids2, if_pos rfl] at hb
      rcases List.mem_or_eq_of_mem_set hb with h' | h'
      · exact .inl (keep (by rw [ev1.kids]; exact h'))
      · exact .inr ⟨rfl, h'.symm⟩
    · rw [hkids2, if_neg e] at hb
      exact .inl (keep (by rw [ev1.kids]; exact hb))
  have hstore : storeField s a i v = barrierGen s2 a v := by
    unfold storeField barrierIncr
    simp only [Option.bind_eq_bind, e1, Option.bind_some, hs2]
  rw [hstore]
  have done : ∀ s3, Inv s3 held G → (∀ x, (s3.obj x).used = (s2.obj x).used) → (∀ x, (s3.obj x).kids = (s2.obj x).kids) →
      ∃ s', some s3 = some s' ∧ Inv s' held G ∧ (∀ x, (s'.obj x).used = (s.obj x).used) ∧
      (∀ x, (s'.obj x).kids = if x = a then (s.obj a).kids.set i v else (s.obj x).kids) :=
    fun s3 hi hu hk => ⟨s3, rfl, hi, fun x => by rw [hu, hused2], fun x => by rw [hk, hkids2]⟩
  unfold barrierGen
  cases v with
  | none =>
    exact done s2 { i2 with old := fun x b hx hb => (hold2 x b hx hb).elim id (fun h => by simp at h) } (fun _ => rfl) (fun _ => rfl)
  | some h' =>
    have hG' : G h' := hv h' rfl
    have la := i2.live a ha
    have lh := i2.live h' hG'
    have hc := vcmp_off s2.version (s2.obj a).version.ver (s2.obj h').version.ver (i2.base.ver a) (i2.base.ver h')
      (by have := i2.live24 ha; unfold off at this; omega) (by have := i2.live24 hG'; unfold off at this; omega)
    have fin : ∀ s3 : St, genOK s3 a h' → s3.obj = s2.obj → s3.version = s2.version → s3.phase = s2.phase →
        (∀ p ∈ s2.rset, p ∈ s3.rset) → ∀ x b, G x → some b ∈ (s3.obj x).kids → genOK s3 x b := by
      intro s3 hg h1 h2 h3 h4 x b hx hb
      have ho : ∀ x, off s3 x = off s2 x := fun x => off_eq (by rw [h1]) h2
      rcases hold2 x b hx (by rw [← h1]; exact hb) with h | ⟨rfl, h⟩
      · intro hev
        rw [ho] at hev
        rw [ho, ho, h3]
        rcases h hev with h | h | h
        · exact .inl h
        · exact .inr (.inl (h4 x h))
        · exact .inr (.inr h)
      · cases h; exact hg
    simp only
    by_cases hle : vcmp (s2.obj a).version.ver (s2.obj h').version.ver ≤ 0
    · rw [if_pos hle]
      refine done s2 { i2 with old := fin s2 ?_ rfl rfl rfl (fun _ h => h) } (fun _ => rfl) (fun _ => rfl)
      intro _; left
      have : ¬ (off s2 h' < off s2 a) := fun hlt => by have := hc.2.2.mpr hlt; omega
      omega
    · rw [if_neg hle]
      have hlt : off s2 h' < off s2 a := hc.2.2.mp (by omega)
      obtain ⟨f1, f2, f3, f4, f5, f6, f7, f8⟩ := addRSet_fields s2 a
      have i3 : Inv (addRSet s2 a) held G :=
        { i2.addRSet a ha (by omega) with
          old := fin _ (fun _ => .inr (.inl ((f8 a).mpr (.inl rfl)))) f1 f2 f3 (fun p hp => (f8 p).mpr (.inr hp)) }
      cases hph : s2.phase with
      | none => exact done _ i3 (fun _ => by rw [f1]) (fun _ => by rw [f1])
      | sweep => exact done _ i3 (fun _ => by rw [f1]) (fun _ => by rw [f1])
      | incr =>
        simp only
        by_cases hodd : (s2.obj a).version.ver % 2 = 1 ∧ ((s2.obj h').version.ver + 1) % 64 = (s2.obj a).version.ver % 64
        · rw [if_pos hodd]
          refine done s2 { i2 with old := fin s2 ?_ rfl rfl rfl (fun _ h => h) } (fun _ => rfl) (fun _ => rfl)
          intro hev
          have := off_odd s2 i2.base.even a; omega
        · rw [if_neg hodd]
          obtain ⟨s4, e4, m4, -⟩ := gcMark_spec (addRSet s2 a) h' none i3.base (by simp)
          rw [e4]
          exact done s4 (i3.evolve (by rw [f3]; exact hph) m4.base m4.ev)
            (fun x => by rw [m4.ev.used, f1]) (fun x => by rw [m4.ev.kids, f1])

end Cora.GC
