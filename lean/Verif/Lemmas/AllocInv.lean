import Verif.Lemmas.Alloc
import Verif.Lemmas.GC
/-
The invariant of the allocator.
-/
namespace Cora.Alloc
open Spec.Alloc
open Cora.GC (upd vcmp sizeClass getSlotBySize MEM_BLOCK_SIZE)

structure Inv (s : Heap) : Prop where
  listed : ∀ slot k, k ∈ s.lists slot → 0 < slot ∧ sizeClass[slot]? = some (s.blk k).cls ∧ (s.blk k).cls ≠ 0
  made : ∀ k, (s.blk k).cls ≠ 0 → k < s.nblocks ∧ (s.blk k).cls ∣ (s.blk k).curr
  table : ∀ k, (s.blk k).cls ≠ 0 → ∃ slot, 0 < slot ∧ sizeClass[slot]? = some (s.blk k).cls
  idle : ∀ k, k ∈ s.free ∨ k ∈ s.gray → k < s.nblocks ∧ s.blk k = ⟨0, 0, false⟩
  nodup : (s.free ++ s.gray).Nodup
  zero : ∀ k, k ∈ s.free → ∀ off, s.head k off = .zero
  unmade : ∀ k, s.nblocks ≤ k → ∀ off, s.head k off = .zero
  untouched : ∀ k, (s.blk k).cls ≠ 0 → (s.blk k).touch = false → ∀ off, (s.blk k).cls ∣ off →
    off + (s.blk k).cls ≤ 4096 → inuse s.gv (s.head k off) = true → (s.head k off).ver % 64 = s.gv % 64
  large : ∀ a ∈ s.large ++ s.parked, LInv a ∧ a.id < s.made
  ids : ((s.large ++ s.parked).map (·.id)).Nodup

/-- a small object in use -/
structure LiveSmall (s : Heap) (k off : Nat) : Prop where
  cls : (s.blk k).cls ≠ 0
  dvd : (s.blk k).cls ∣ off
  fits : off + (s.blk k).cls ≤ 4096
  used : inuse s.gv (s.head k off) = true

/-- a large object in use -/
structure LiveLarge (s : Heap) (a : LArena) (t : Nat) : Prop where
  mem : a ∈ s.large ++ s.parked
  tile : Tile a t
  used : inuse s.gv (a.head t) = true

/-- the memory of an object in use -/
def Live (s : Heap) (r : Region) : Prop :=
  (∃ k off, LiveSmall s k off ∧ r = smallRegion k off (s.blk k).cls) ∨
  (∃ a t, LiveLarge s a t ∧ r = largeRegion a.id t (lslots (a.head t)))

theorem inuse_zero (gv : Nat) : inuse gv .zero = false := rfl

theorem inv_init : Inv .init where
  listed := by intro _ _ h; simp [Heap.init] at h
  made := by intro k h; simp [Heap.init] at h
  table := by intro k h; simp [Heap.init] at h
  idle := by intro k h; simp [Heap.init] at h
  nodup := by simp [Heap.init]
  zero := by intro k h; simp [Heap.init] at h
  unmade := by intro k _ _; simp [Heap.init]
  untouched := by intro k h; simp [Heap.init] at h
  large := by intro a h; simp [Heap.init] at h
  ids := by simp [Heap.init]

/-! ### finding the header again -/

theorem small_headAt (s : Heap) {k off n : Nat} (h : off < 4096) : headAt s (smallRegion k off n) = some (s.head k off) := by
  simp only [headAt, smallRegion, BLOCKS, MEM_BLOCK_SIZE, Bool.false_eq_true, if_false]
  rw [show k / 16384 * 16384 + (k % 16384 * 4096 + off) / 4096 = k by omega,
    show (k % 16384 * 4096 + off) % 4096 = off by omega]

theorem find_id : ∀ {l : List LArena} {a : LArena}, (l.map (·.id)).Nodup → a ∈ l → l.find? (·.id == a.id) = some a
  | b :: l, a, hn, hm => by
    simp only [List.map_cons, List.nodup_cons] at hn
    rcases List.mem_cons.mp hm with rfl | hm
    · simp
    · have : b.id ≠ a.id := fun h => hn.1 (by rw [h]; exact List.mem_map_of_mem hm)
      rw [List.find?_cons_of_neg (by simpa using this)]
      exact find_id hn.2 hm

theorem same_id : ∀ {l : List LArena} {a b : LArena}, (l.map (·.id)).Nodup → a ∈ l → b ∈ l → a.id = b.id → a = b := by
  intro l a b hn ha hb h
  have h1 := find_id hn ha
  have h2 := find_id hn hb
  rw [h, h2] at h1
  exact (Option.some.inj h1).symm

theorem large_headAt {s : Heap} (hi : Inv s) {a : LArena} (ha : a ∈ s.large ++ s.parked) (t n : Nat) :
    headAt s (largeRegion a.id t n) = some (a.head t) := by
  simp only [headAt, largeRegion, MEM_BLOCK_SIZE, if_true]
  rw [find_id hi.ids ha, show t * 4096 / 4096 = t by omega]
  rfl

theorem live_inUse {s : Heap} (hi : Inv s) {r : Region} (h : Live s r) : inUseAt s.gv s r = true := by
  rcases h with ⟨k, off, h, rfl⟩ | ⟨a, t, h, rfl⟩
  · have := h.fits
    have := h.cls
    rw [inUseAt, small_headAt s (by omega)]
    exact h.used
  · rw [inUseAt, large_headAt hi h.mem]
    exact h.used

/-! ### objects next to each other -/

theorem small_disjoint_block {k k' off off' n n' : Nat} (h : k ≠ k') (h1 : off + n ≤ 4096) (h2 : off' + n' ≤ 4096) :
    Disjoint (smallRegion k off n) (smallRegion k' off' n') := by
  simp only [Disjoint, smallRegion, BLOCKS, MEM_BLOCK_SIZE]
  omega

theorem dvd_apart {c x y : Nat} (hx : c ∣ x) (hy : c ∣ y) (h : x < y) : x + c ≤ y := by
  obtain ⟨i, rfl⟩ := hx
  obtain ⟨j, rfl⟩ := hy
  have : i < j := Nat.lt_of_mul_lt_mul_left h
  calc c * i + c = c * (i + 1) := by rw [Nat.mul_add, Nat.mul_one]
    _ ≤ c * j := Nat.mul_le_mul_left _ this

theorem small_disjoint_off {k off off' c : Nat} (h : off ≠ off') (h1 : c ∣ off) (h2 : c ∣ off') :
    Disjoint (smallRegion k off c) (smallRegion k off' c) := by
  simp only [Disjoint, smallRegion, BLOCKS, MEM_BLOCK_SIZE]
  rcases Nat.lt_or_gt_of_ne h with h | h
  · have := dvd_apart h1 h2 h; omega
  · have := dvd_apart h2 h1 h; omega

theorem large_disjoint_arena {i j t u n m : Nat} (h : i ≠ j) : Disjoint (largeRegion i t n) (largeRegion j u m) := by
  simp only [Disjoint, largeRegion]
  exact .inr (.inl h)

theorem large_disjoint_tile {i t u n m : Nat} (h : t + n ≤ u ∨ u + m ≤ t) : Disjoint (largeRegion i t n) (largeRegion i u m) := by
  simp only [Disjoint, largeRegion, MEM_BLOCK_SIZE]
  omega

theorem tile_apart {a : LArena} {t u : Nat} (ht : Tile a t) (hu : Tile a u) (h : t ≠ u) :
    t + lslots (a.head t) ≤ u ∨ u + lslots (a.head u) ≤ t := by
  rcases Nat.lt_or_gt_of_ne h with h | h
  · exact .inl (tiles_apart ht.1 hu.1 h ht.2.1 (Nat.le_of_lt hu.2.2))
  · exact .inr (tiles_apart hu.1 ht.1 h hu.2.1 (Nat.le_of_lt ht.2.2))

theorem tile_end {a : LArena} {t : Nat} (ht : Tile a t) : t + lslots (a.head t) ≤ a.idx :=
  tiles_le (tiles_first ht.2.1 ht.2.2).2.2

/-! ### versions -/

theorem vcmp_self (v w : Nat) (h : v % 64 = w % 64) : vcmp v w = 0 := by
  obtain ⟨c, hc, h1⟩ := Cora.GC.C30_version_order v v (by omega) (by omega)
  unfold vcmp
  rw [← h, hc]
  simpa using h1.1.mpr rfl

theorem vcmp_next (v w : Nat) (h : w % 64 = (v + 2) % 64) : vcmp v w < 0 := by
  obtain ⟨c, hc, h1⟩ := Cora.GC.C30_version_order v (v + 2) (by omega) (by omega)
  unfold vcmp
  rw [h, hc]
  simpa using h1.2.1.mpr (by omega)

theorem vcmp_prev (v w : Nat) (h : w % 64 = v % 64) : vcmp (v + 2) w > 0 := by
  obtain ⟨c, hc, h1⟩ := Cora.GC.C30_version_order (v + 2) v (by omega) (by omega)
  unfold vcmp
  rw [h, hc]
  simpa using h1.2.2.mpr (by omega)

theorem inuse_new (s : Heap) (size n : Nat) : inuse s.gv ⟨true, size, newVer s, n⟩ = true := by
  simp only [inuse, newVer, Bool.true_and]
  refine decide_eq_true ?_
  split
  · exact Int.le_of_lt (vcmp_next s.gv ((s.gv + 2) % 64) (by omega))
  · exact Int.le_of_eq (vcmp_self s.gv (s.gv % 64) (by omega))

/-! ### small objects -/

/-- what stays the same while a place for a small object is looked for -/
structure Frame (s s' : Heap) : Prop where
  gv : s'.gv = s.gv
  busy : s'.busy = s.busy
  head : s'.head = s.head
  large : s'.large = s.large
  parked : s'.parked = s.parked
  made : s'.made = s.made
  cls : ∀ k, (s.blk k).cls ≠ 0 → (s'.blk k).cls = (s.blk k).cls

theorem Frame.refl (s : Heap) : Frame s s := ⟨rfl, rfl, rfl, rfl, rfl, rfl, fun _ _ => rfl⟩

theorem Frame.trans {s s' s'' : Heap} (h : Frame s s') (h' : Frame s' s'') : Frame s s'' :=
  ⟨h'.gv.trans h.gv, h'.busy.trans h.busy, h'.head.trans h.head, h'.large.trans h.large, h'.parked.trans h.parked,
   h'.made.trans h.made, fun k hk => (h'.cls k (by rw [h.cls k hk]; exact hk)).trans (h.cls k hk)⟩

theorem Frame.liveSmall {s s' : Heap} (h : Frame s s') {k off : Nat} (hl : LiveSmall s k off) : LiveSmall s' k off := by
  have hc := h.cls k hl.cls
  exact ⟨by rw [hc]; exact hl.cls, by rw [hc]; exact hl.dvd, by rw [hc]; exact hl.fits, by rw [h.gv, h.head]; exact hl.used⟩

theorem Frame.live {s s' : Heap} (h : Frame s s') {r : Region} (hl : Live s r) : Live s' r := by
  rcases hl with ⟨k, off, hl, rfl⟩ | ⟨a, t, hl, rfl⟩
  · exact .inl ⟨k, off, h.liveSmall hl, by rw [h.cls k hl.cls]⟩
  · exact .inr ⟨a, t, ⟨by rw [h.large, h.parked]; exact hl.mem, hl.tile, by rw [h.gv]; exact hl.used⟩, rfl⟩

/-- a block from the free list or a new one -/
theorem freshBlock_spec {s : Heap} (hi : Inv s) : ∃ s' b, freshBlock s = some (s', b) ∧ Inv s' ∧ Frame s s' ∧
    s'.blk b = ⟨0, 0, false⟩ ∧ b < s'.nblocks ∧ (∀ off, s'.head b off = .zero) ∧ b ∉ s'.free ∧ b ∉ s'.gray ∧
    s'.lists = s.lists ∧ s'.gray = s.gray := by
  unfold freshBlock
  cases hf : s.free with
  | nil =>
    have hcls : (s.blk s.nblocks).cls = 0 := Classical.not_not.mp fun h => absurd (hi.made _ h).1 (Nat.lt_irrefl _)
    have hne : ∀ k, (upd s.blk s.nblocks ⟨0, 0, false⟩ k).cls ≠ 0 → k ≠ s.nblocks := by
      intro k hk e
      rw [e, upd_same] at hk
      exact hk rfl
    refine ⟨_, _, rfl, ?_, ?_, upd_same _ _ _, Nat.lt_succ_self _, hi.unmade _ (Nat.le_refl _), by simp [hf], ?_, rfl, rfl⟩
    · refine ⟨?_, ?_, ?_, ?_, ?_, ?_, ?_, ?_, hi.large, hi.ids⟩
      · intro slot k hk
        have h1 := hi.listed slot k hk
        have h2 : k ≠ s.nblocks := fun e => h1.2.2 (by rw [e]; exact hcls)
        simp only [upd_other _ _ h2]
        exact h1
      · intro k hk
        have h2 := hne k hk
        simp only [upd_other _ _ h2] at hk ⊢
        have := hi.made k hk
        exact ⟨by omega, this.2⟩
      · intro k hk
        have h2 := hne k hk
        simp only [upd_other _ _ h2] at hk ⊢
        exact hi.table k hk
      · intro k hk
        have h1 := hi.idle k (by rw [hf]; exact hk)
        have h2 : k ≠ s.nblocks := by omega
        simp only [upd_other _ _ h2]
        exact ⟨by omega, h1.2⟩
      · have := hi.nodup
        rw [hf] at this
        exact this
      · intro k hk
        simp at hk
      · intro k hk off
        exact hi.unmade k (by simp only at hk; omega) off
      · intro k hk
        have h2 := hne k hk
        simp only [upd_other _ _ h2] at hk ⊢
        exact hi.untouched k hk
    · refine ⟨rfl, rfl, rfl, rfl, rfl, rfl, fun k hk => ?_⟩
      have h2 : k ≠ s.nblocks := fun e => hk (by rw [e]; exact hcls)
      simp only [upd_other _ _ h2]
    · intro h
      have := (hi.idle _ (.inr h)).1
      omega
  | cons b rest =>
    have hb := hi.idle b (.inl (by rw [hf]; exact List.mem_cons_self))
    have hn := hi.nodup
    rw [hf] at hn
    simp only [List.cons_append, List.nodup_cons, List.mem_append, not_or] at hn
    dsimp only
    rw [if_pos (by rw [hb.2]; exact ⟨rfl, rfl, rfl⟩)]
    refine ⟨_, _, rfl, ?_, ⟨rfl, rfl, rfl, rfl, rfl, rfl, fun _ _ => rfl⟩, hb.2, hb.1, hi.zero b (by rw [hf]; exact List.mem_cons_self), hn.1.1,
      hn.1.2, rfl, rfl⟩
    exact ⟨hi.listed, hi.made, hi.table, fun k hk => hi.idle k (by rw [hf]; exact hk.imp (List.mem_cons_of_mem _) (fun x => x)), hn.2,
      fun k hk => hi.zero k (by rw [hf]; exact List.mem_cons_of_mem _ hk), hi.unmade, hi.untouched, hi.large, hi.ids⟩

/-- a block of the size class -/
theorem getBlock_spec {s : Heap} (hi : Inv s) {slot c : Nat} (h0 : 0 < slot) (hc : sizeClass[slot]? = some c) (hc0 : c ≠ 0) :
    ∃ s' b, getBlock s slot = some (s', b) ∧ Inv s' ∧ Frame s s' ∧ b ∈ s'.lists slot ∧ (s'.blk b).cls = c ∧
      (s.lists slot = [] → (s'.blk b).curr = 0 ∧ (∀ off, s'.head b off = .zero)) ∧ (s.lists slot ≠ [] → s'.lists = s.lists) := by
  unfold getBlock
  cases hl : s.lists slot with
  | cons b rest =>
    have hb := hi.listed slot b (by rw [hl]; exact List.mem_cons_self)
    refine ⟨s, b, rfl, hi, .refl _, by rw [hl]; exact List.mem_cons_self, ?_, by simp, by simp⟩
    have := hb.2.1
    rw [hc] at this
    exact (Option.some.inj this).symm
  | nil =>
    obtain ⟨s1, b, h1, h2, h3, h4, h5, h6, h7, h8, h9, _⟩ := freshBlock_spec hi
    dsimp only
    rw [h1, hc]
    refine ⟨_, _, rfl, ?_, ?_, by simp [upd_same], by simp [upd_same], fun _ => ⟨by simp [upd_same, h4], h6⟩, by simp⟩
    · refine ⟨?_, ?_, ?_, ?_, h2.nodup, h2.zero, h2.unmade, ?_, h2.large, h2.ids⟩
      · intro sl k hk
        by_cases hsl : sl = slot
        · subst hsl
          simp only [upd_same, List.mem_singleton] at hk
          subst hk
          exact ⟨h0, by simp only [upd_same]; exact hc, by simp only [upd_same]; exact hc0⟩
        · simp only [upd_other _ _ hsl] at hk
          have h := h2.listed sl k hk
          have hkb : k ≠ b := fun e => h.2.2 (by rw [e, h4])
          simp only [upd_other _ _ hkb]
          exact h
      · intro k hk
        by_cases hkb : k = b
        · subst hkb
          exact ⟨h5, by simp only [upd_same, h4]; exact ⟨0, by simp⟩⟩
        · simp only [upd_other _ _ hkb] at hk ⊢
          exact h2.made k hk
      · intro k hk
        by_cases hkb : k = b
        · subst hkb
          exact ⟨slot, h0, by simp only [upd_same]; exact hc⟩
        · simp only [upd_other _ _ hkb] at hk ⊢
          exact h2.table k hk
      · intro k hk
        have hkb : k ≠ b := by
          rintro rfl
          rcases hk with hk | hk
          · exact h7 hk
          · exact h8 hk
        simp only [upd_other _ _ hkb]
        exact h2.idle k hk
      · intro k hk
        by_cases hkb : k = b
        · subst hkb
          intro _ off _ _ hu
          rw [h6] at hu
          simp [inuse_zero] at hu
        · simp only [upd_other _ _ hkb] at hk ⊢
          exact h2.untouched k hk
    · refine h3.trans ⟨rfl, rfl, rfl, rfl, rfl, rfl, fun k hk => ?_⟩
      have hkb : k ≠ b := fun e => hk (by rw [e, h4])
      simp only [upd_other _ _ hkb]

/-- changing the place to look at, and touching -/
theorem inv_curr {s : Heap} (hi : Inv s) {b curr : Nat} {t : Bool} (hb : (s.blk b).cls ≠ 0) (hd : (s.blk b).cls ∣ curr)
    (ht : t = false → (s.blk b).touch = false) :
    Inv { s with blk := upd s.blk b ⟨(s.blk b).cls, curr, t⟩ } := by
  have hcls : ∀ k, (upd s.blk b ⟨(s.blk b).cls, curr, t⟩ k).cls = (s.blk k).cls := by
    intro k
    by_cases hk : k = b
    · subst hk; rw [upd_same]
    · rw [upd_other _ _ hk]
  refine ⟨?_, ?_, ?_, ?_, hi.nodup, hi.zero, hi.unmade, ?_, hi.large, hi.ids⟩
  · intro slot k hk
    simp only [hcls]
    exact hi.listed slot k hk
  · intro k hk
    simp only [hcls] at hk ⊢
    by_cases hkb : k = b
    · subst hkb
      rw [upd_same]
      exact ⟨(hi.made k hk).1, hd⟩
    · rw [upd_other _ _ hkb]
      exact hi.made k hk
  · intro k hk
    simp only [hcls] at hk ⊢
    exact hi.table k hk
  · intro k hk
    have h := hi.idle k hk
    have hkb : k ≠ b := by
      rintro rfl
      rw [h.2] at hb
      exact hb rfl
    simp only [upd_other _ _ hkb]
    exact h
  · intro k hk htch
    simp only [hcls] at hk ⊢
    refine hi.untouched k hk ?_
    by_cases hkb : k = b
    · subst hkb
      simp only [upd_same] at htch
      exact ht htch
    · simpa only [upd_other _ _ hkb] using htch

theorem frame_curr (s : Heap) {b curr : Nat} {t : Bool} : Frame s { s with blk := upd s.blk b ⟨(s.blk b).cls, curr, t⟩ } := by
  refine ⟨rfl, rfl, rfl, rfl, rfl, rfl, fun k _ => ?_⟩
  by_cases hk : k = b
  · subst hk; simp only [upd_same]
  · simp only [upd_other _ _ hk]

theorem touchOf_false {s : Heap} {h : Head} {t : Bool} (ht : touchOf s h t = false) : t = false := by
  unfold touchOf at ht
  split at ht <;> simp at ht <;> exact ht.1

theorem blockAlloc_spec {b : Nat} : ∀ (n : Nat) (s : Heap), Inv s → (s.blk b).cls ≠ 0 → ∃ s' r, blockAlloc n s b = (s', r) ∧ Inv s' ∧
    Frame s s' ∧ s'.lists = s.lists ∧ ∀ p, r = some p → (s.blk b).cls ∣ p ∧ p + (s.blk b).cls ≤ 4096 ∧
      inuse s.gv (s.head b p) = false ∧ (s.busy = true → (s'.blk b).touch = true)
  | 0, s, hi, _ => ⟨s, none, rfl, hi, .refl _, rfl, by simp⟩
  | n + 1, s, hi, hb => by
    rw [blockAlloc]
    by_cases hfit : (s.blk b).curr + (s.blk b).cls ≤ MEM_BLOCK_SIZE
    · rw [if_pos hfit]
      dsimp only
      have hd := (hi.made b hb).2
      have hi' := inv_curr hi (curr := (s.blk b).curr + (s.blk b).cls) (t := touchOf s (s.head b (s.blk b).curr) (s.blk b).touch) hb
        ((Nat.dvd_add_right hd).mpr (Nat.dvd_refl _)) touchOf_false
      by_cases hu : inuse s.gv (s.head b (s.blk b).curr) = true
      · rw [if_pos hu]
        obtain ⟨s', r, h1, h2, h3, h4, h5⟩ := blockAlloc_spec (b := b) n _ hi' (by simp only [upd_same]; exact hb)
        refine ⟨s', r, h1, h2, (frame_curr s).trans h3, h4, fun p hp => ?_⟩
        have := h5 p hp
        simp only [upd_same] at this
        exact this
      · rw [if_neg hu]
        refine ⟨_, _, rfl, hi', frame_curr s, rfl, fun p hp => ?_⟩
        cases hp
        refine ⟨hd, hfit, by simpa using hu, fun hbusy => ?_⟩
        simp only [upd_same, touchOf, hu, hbusy]
        simp
    · rw [if_neg hfit]
      exact ⟨s, none, rfl, hi, .refl _, rfl, by simp⟩

theorem inv_pop {s : Heap} (hi : Inv s) {slot b : Nat} (hb : (s.blk b).cls ≠ 0) : Inv (popBlock s slot b) := by
  have h := inv_curr hi (curr := 0) (t := (s.blk b).touch) hb ⟨0, by simp⟩ (fun h => h)
  refine ⟨?_, h.made, h.table, h.idle, h.nodup, h.zero, h.unmade, h.untouched, h.large, h.ids⟩
  intro sl k hk
  refine h.listed sl k ?_
  simp only [popBlock] at hk
  by_cases hsl : sl = slot
  · subst hsl
    rw [upd_same] at hk
    exact List.mem_of_mem_tail hk
  · rw [upd_other _ _ hsl] at hk
    exact hk

theorem frame_pop (s : Heap) (slot b : Nat) : Frame s (popBlock s slot b) := by
  have := frame_curr s (b := b) (curr := 0) (t := (s.blk b).touch)
  exact ⟨rfl, rfl, rfl, rfl, rfl, rfl, this.cls⟩

/-- the place for a small object -/
theorem allocLoop_spec {slot c : Nat} (h0 : 0 < slot) (hc : sizeClass[slot]? = some c) (hc0 : c ≠ 0) : ∀ (n : Nat) (s : Heap), Inv s →
    ∀ s' b p, allocLoop slot n s = some (s', b, p) → Inv s' ∧ Frame s s' ∧ (s'.blk b).cls = c ∧ c ∣ p ∧ p + c ≤ 4096 ∧
      inuse s.gv (s.head b p) = false ∧ (s.busy = true → (s'.blk b).touch = true)
  | 0, _, _, _, _, _, h => by simp [allocLoop] at h
  | n + 1, s, hi, s', b, p, h => by
    obtain ⟨s1, b1, g1, g2, g3, _, g5, _, _⟩ := getBlock_spec hi h0 hc hc0
    rw [allocLoop, g1] at h
    dsimp only at h
    obtain ⟨s2, r, k1, k2, k3, _, k5⟩ := blockAlloc_spec (b := b1) (MEM_BLOCK_SIZE + 1) s1 g2 (by rw [g5]; exact hc0)
    rw [k1] at h
    cases r with
    | some q =>
      simp only [Option.some.injEq, Prod.mk.injEq] at h
      obtain ⟨rfl, rfl, rfl⟩ := h
      have := k5 q rfl
      rw [g5] at this
      refine ⟨k2, g3.trans k3, (k3.cls _ (by rw [g5]; exact hc0)).trans g5, this.1, this.2.1, ?_, ?_⟩
      · rw [← g3.gv, ← g3.head]; exact this.2.2.1
      · rw [← g3.busy]; exact this.2.2.2
    | none =>
      dsimp only at h
      have hb2 : (s2.blk b1).cls ≠ 0 := by rw [k3.cls _ (by rw [g5]; exact hc0), g5]; exact hc0
      obtain ⟨m1, m2, m3, m4, m5, m6, m7⟩ := allocLoop_spec h0 hc hc0 n _ (inv_pop k2 hb2) s' b p h
      have hf := (g3.trans k3).trans (frame_pop s2 slot b1)
      refine ⟨m1, hf.trans m2, m3, m4, m5, ?_, ?_⟩
      · rw [← hf.gv, ← hf.head]; exact m6
      · rw [← hf.busy]; exact m7

/-- there is always a place for a small object -/
theorem allocLoop_some {slot c : Nat} (h0 : 0 < slot) (hc : sizeClass[slot]? = some c) (hc0 : c ≠ 0) (hc1 : c ≤ 4096) :
    ∀ (n : Nat) (s : Heap), Inv s → (s.lists slot).length < n → ∃ x, allocLoop slot n s = some x
  | 0, _, _, h => by omega
  | n + 1, s, hi, hn => by
    obtain ⟨s1, b1, g1, g2, g3, g4, g5, g6, g7⟩ := getBlock_spec hi h0 hc hc0
    rw [allocLoop, g1]
    dsimp only
    obtain ⟨s2, r, k1, k2, k3, k4, k5⟩ := blockAlloc_spec (b := b1) (MEM_BLOCK_SIZE + 1) s1 g2 (by rw [g5]; exact hc0)
    rw [k1]
    cases r with
    | some q => exact ⟨_, rfl⟩
    | none =>
      dsimp only
      by_cases hl : s.lists slot = []
      · exfalso
        obtain ⟨f1, f2⟩ := g6 hl
        rw [blockAlloc, if_pos (by rw [f1, g5]; simpa [MEM_BLOCK_SIZE] using hc1)] at k1
        simp only [f1, f2, inuse_zero, Bool.false_eq_true, if_false, Prod.mk.injEq] at k1
        exact absurd k1.2 (by simp)
      · have hb2 : (s2.blk b1).cls ≠ 0 := by rw [k3.cls _ (by rw [g5]; exact hc0), g5]; exact hc0
        refine allocLoop_some h0 hc hc0 hc1 n _ (inv_pop k2 hb2) ?_
        simp only [popBlock, upd_same, List.length_tail, k4, g7 hl]
        have : (s.lists slot).length ≠ 0 := by simpa using hl
        omega

/-- a small object is put into its place -/
theorem inv_put {s : Heap} (hi : Inv s) {b p size : Nat} (hb : (s.blk b).cls ≠ 0) (hbusy : s.busy = true → (s.blk b).touch = true) :
    Inv { s with head := upd s.head b (upd (s.head b) p ⟨true, size, newVer s, 0⟩) } := by
  refine ⟨hi.listed, hi.made, hi.table, hi.idle, hi.nodup, ?_, ?_, ?_, hi.large, hi.ids⟩
  · intro k hk off
    have hkb : k ≠ b := by
      rintro rfl
      rw [(hi.idle k (.inl hk)).2] at hb
      exact hb rfl
    simp only [upd_other _ _ hkb]
    exact hi.zero k hk off
  · intro k hk off
    have hkb : k ≠ b := by
      rintro rfl
      have := (hi.made k hb).1
      simp only at hk
      omega
    simp only [upd_other _ _ hkb]
    exact hi.unmade k hk off
  · intro k hk ht off hd hf hu
    by_cases hkb : k = b
    · subst hkb
      simp only [upd_same] at hu ⊢
      by_cases hop : off = p
      · subst hop
        have : s.busy = false := by
          cases hbs : s.busy
          · rfl
          · simp only [hbusy hbs] at ht
            simp at ht
        simp only [upd_same, newVer, this]
        simp
      · simp only [upd_other _ _ hop] at hu ⊢
        exact hi.untouched k hk ht off hd hf hu
    · simp only [upd_other _ _ hkb] at hu ⊢
      exact hi.untouched k hk ht off hd hf hu

/-! ### large objects -/

/-- the search for a place for a large object -/
theorem largeLoop_spec {slots : Nat} (h0 : 0 < slots) : ∀ (n : Nat) (s : Heap), Inv s → ∀ s' a p, largeLoop slots n s = some (s', a, p) →
    s'.large = a :: s'.large.tail ∧ s'.busy = s.busy ∧ s'.gv = s.gv ∧ ∀ size, blocksOf size = slots →
      Inv { s' with large := a.place p size (newVer s) :: s'.large.tail } ∧ Tile (a.place p size (newVer s)) p ∧
      ∀ r, Live s r → Live { s' with large := a.place p size (newVer s) :: s'.large.tail } r ∧ Disjoint r (largeRegion a.id p slots)
  | 0, _, _, _, _, _, h => by simp [largeLoop] at h
  | n + 1, s, hi, s', a, p, h => by
    rw [largeLoop] at h
    cases hl : s.large with
    | nil =>
      rw [hl] at h
      dsimp only at h
      have hi' : Inv { s with large := [LArena.new s.made], made := s.made + 1 } := by
        refine ⟨hi.listed, hi.made, hi.table, hi.idle, hi.nodup, hi.zero, hi.unmade, hi.untouched, ?_, ?_⟩
        · intro b hb
          simp only [List.cons_append, List.nil_append, List.mem_cons] at hb
          rcases hb with rfl | hb
          · exact ⟨⟨.nil _, .nil _, by simp [LArena.new]⟩, by simp [LArena.new]⟩
          · have := hi.large b (by simp [hb])
            exact ⟨this.1, by have := this.2; simp only; omega⟩
        · have hids := hi.ids
          rw [hl] at hids
          simp only [List.nil_append, List.cons_append, List.map_cons, List.nodup_cons] at hids ⊢
          refine ⟨?_, hids⟩
          simp only [List.mem_map, not_exists, not_and, LArena.new]
          intro b hb e
          have := (hi.large b (by simp [hb])).2
          omega
      obtain ⟨h1, h2, h3, h4⟩ := largeLoop_spec h0 n _ hi' s' a p h
      refine ⟨h1, h2, h3, fun size hsz => ?_⟩
      obtain ⟨h5, h6, h7⟩ := h4 size hsz
      refine ⟨h5, h6, fun r hr => h7 r ?_⟩
      rcases hr with ⟨k, off, hr, rfl⟩ | ⟨b, t, hr, rfl⟩
      · exact .inl ⟨k, off, ⟨hr.cls, hr.dvd, hr.fits, hr.used⟩, rfl⟩
      · refine .inr ⟨b, t, ⟨?_, hr.tile, hr.used⟩, rfl⟩
        have := hr.mem
        rw [hl] at this
        simp only [List.nil_append] at this
        simp [this]
    | cons c rest =>
      rw [hl] at h
      dsimp only at h
      have hc := hi.large c (by simp [hl])
      have hids := hi.ids
      rw [hl] at hids
      simp only [List.cons_append, List.map_cons, List.nodup_cons] at hids
      obtain ⟨d, r, hd1, hd2, hd3⟩ := allocIn_spec (gv := s.gv) h0 ROUNDS c hc.1 (by simp [ROUNDS]; omega)
      rw [hd1] at h
      cases r with
      | none =>
        dsimp only at h
        have hperm : ∀ b, b ∈ rest ++ d :: s.parked ↔ b = d ∨ b ∈ rest ++ s.parked := by
          intro b; simp only [List.mem_append, List.mem_cons]; grind
        have hi' : Inv { s with large := rest, parked := d :: s.parked } := by
          refine ⟨hi.listed, hi.made, hi.table, hi.idle, hi.nodup, hi.zero, hi.unmade, hi.untouched, ?_, ?_⟩
          · intro b hb
            rcases (hperm b).mp hb with rfl | hb
            · exact ⟨hd3.1, by rw [hd2]; exact hc.2⟩
            · exact hi.large b (by rw [hl]; exact List.mem_cons_of_mem _ hb)
          · simp only [List.map_append, List.map_cons] at hids ⊢
            rw [hd2]
            exact (List.perm_middle.nodup_iff).mpr (List.nodup_cons.mpr hids)
        obtain ⟨h1, h2, h3, h4⟩ := largeLoop_spec h0 n _ hi' s' a p h
        refine ⟨h1, h2, h3, fun size hsz => ?_⟩
        obtain ⟨h5, h6, h7⟩ := h4 size hsz
        refine ⟨h5, h6, fun r hr => h7 r ?_⟩
        rcases hr with ⟨k, off, hr, rfl⟩ | ⟨b, t, hr, rfl⟩
        · exact .inl ⟨k, off, ⟨hr.cls, hr.dvd, hr.fits, hr.used⟩, rfl⟩
        · have hm := hr.mem
          rw [hl, List.cons_append, List.mem_cons] at hm
          rcases hm with rfl | hm
          · obtain ⟨k1, k2⟩ := hd3.2 t hr.tile hr.used
            exact .inr ⟨d, t, ⟨(hperm d).mpr (.inl rfl), k1, by rw [k2]; exact hr.used⟩, by rw [hd2, k2]⟩
          · exact .inr ⟨b, t, ⟨(hperm b).mpr (.inr hm), hr.tile, hr.used⟩, rfl⟩
      | some q =>
        simp only [Option.some.injEq, Prod.mk.injEq] at h
        obtain ⟨rfl, rfl, rfl⟩ := h
        refine ⟨rfl, rfl, rfl, fun size hsz => ?_⟩
        have hpl := hd3 size (newVer s) hsz
        have hid : (d.place q size (newVer s)).id = c.id := hd2
        refine ⟨?_, hpl.tile, ?_⟩
        · refine ⟨hi.listed, hi.made, hi.table, hi.idle, hi.nodup, hi.zero, hi.unmade, hi.untouched, ?_, ?_⟩
          · intro b hb
            simp only [List.tail_cons, List.cons_append, List.mem_cons] at hb
            rcases hb with rfl | hb
            · exact ⟨hpl.inv, by rw [hid]; exact hc.2⟩
            · exact hi.large b (by rw [hl]; exact List.mem_cons_of_mem _ hb)
          · simp only [List.tail_cons, List.cons_append, List.map_cons, hid]
            exact List.nodup_cons.mpr hids
        · intro r hr
          rcases hr with ⟨k, off, hr, rfl⟩ | ⟨b, t, hr, rfl⟩
          · exact ⟨.inl ⟨k, off, ⟨hr.cls, hr.dvd, hr.fits, hr.used⟩, rfl⟩, .inl (by simp [smallRegion, largeRegion])⟩
          · have hm := hr.mem
            rw [hl, List.cons_append, List.mem_cons] at hm
            rcases hm with rfl | hm
            · obtain ⟨⟨k1, k2⟩, k3⟩ := hpl.keep t hr.tile hr.used
              refine ⟨.inr ⟨d.place q size (newVer s), t, ⟨by simp, k1, by rw [k2]; exact hr.used⟩, by rw [hid, k2]⟩, ?_⟩
              rw [hd2]
              apply large_disjoint_tile
              have := tile_apart k1 hpl.tile k3
              rw [k2] at this
              simp only [LArena.place, upd_same, used_lslots, hsz] at this
              exact this
            · refine ⟨.inr ⟨b, t, ⟨by simp only [List.tail_cons, List.cons_append]; exact List.mem_cons_of_mem _ hm, hr.tile, hr.used⟩, rfl⟩, ?_⟩
              rw [hd2]
              refine large_disjoint_arena fun e => hids.1 ?_
              rw [← e]
              exact List.mem_map_of_mem hm

/-- there is always a place for a large object, unless it needs a whole arena -/
theorem largeLoop_some {slots : Nat} (h0 : 0 < slots) (h1 : slots < BLOCKS) : ∀ (n : Nat) (s : Heap), Inv s → s.large.length + 1 < n →
    ∃ x, largeLoop slots n s = some x
  | 0, _, _, h => by omega
  | n + 1, s, hi, hn => by
    rw [largeLoop]
    cases hl : s.large with
    | nil =>
      dsimp only
      cases n with
      | zero => omega
      | succ n =>
        rw [largeLoop]
        dsimp only
        have : ∃ b, allocIn s.gv slots ROUNDS (LArena.new s.made) = some (b, some 0) := by
          rw [show ROUNDS = BLOCKS + 1 from rfl, allocIn]
          simp only [LArena.new, Nat.zero_add]
          rw [if_pos (by omega), if_pos trivial, if_neg (by omega)]
          exact ⟨_, rfl⟩
        obtain ⟨b, hb⟩ := this
        rw [hb]
        exact ⟨_, rfl⟩
    | cons c rest =>
      dsimp only
      have hc := hi.large c (by simp [hl])
      have hids := hi.ids
      rw [hl] at hids
      simp only [List.cons_append, List.map_cons, List.nodup_cons] at hids
      obtain ⟨d, r, hd1, hd2, hd3⟩ := allocIn_spec (gv := s.gv) h0 ROUNDS c hc.1 (by simp [ROUNDS]; omega)
      rw [hd1]
      cases r with
      | some q => exact ⟨_, rfl⟩
      | none =>
        dsimp only
        refine largeLoop_some h0 h1 n _ ?_ (by simp only; rw [hl, List.length_cons] at hn; omega)
        refine ⟨hi.listed, hi.made, hi.table, hi.idle, hi.nodup, hi.zero, hi.unmade, hi.untouched, ?_, ?_⟩
        · intro b hb
          have : b = d ∨ b ∈ rest ++ s.parked := by
            simp only [List.mem_append, List.mem_cons] at hb ⊢; grind
          rcases this with rfl | hb
          · exact ⟨hd3.1, by rw [hd2]; exact hc.2⟩
          · exact hi.large b (by rw [hl]; exact List.mem_cons_of_mem _ hb)
        · simp only [List.map_append, List.map_cons] at hids ⊢
          rw [hd2]
          exact (List.perm_middle.nodup_iff).mpr (List.nodup_cons.mpr hids)

end Cora.Alloc
