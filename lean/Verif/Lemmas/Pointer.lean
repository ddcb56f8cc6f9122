import Verif.Lemmas.AllocStep
import Verif.Lemmas.NaNBox
import Verif.Spec.Pointer
/-
Finding the object: the invariant about the rest of a block, and the search for the arena.
-/
namespace Cora.Alloc
open Spec.Alloc
open Cora.GC (upd vcmp sizeClass getSlotBySize MEM_BLOCK_SIZE)

/-! ### what is behind the last object of a block -/

/-- behind the last object that fits into a block the memory is zero -/
def Rest (s : Heap) : Prop := ∀ k off, (s.blk k).cls ≠ 0 → (s.blk k).cls ∣ off → 4096 < off + (s.blk k).cls → s.head k off = .zero

/-- the memory is the same, and only empty blocks get a size class -/
structure Grown (s s' : Heap) : Prop where
  head : s'.head = s.head
  cls : ∀ k, (s'.blk k).cls ≠ 0 → (s'.blk k).cls = (s.blk k).cls ∨ ∀ off, s.head k off = .zero

theorem Grown.refl (s : Heap) : Grown s s := ⟨rfl, fun _ _ => .inl rfl⟩

theorem Grown.trans {s s' s'' : Heap} (h : Grown s s') (h' : Grown s' s'') : Grown s s'' where
  head := h'.head.trans h.head
  cls k hk := by
    rcases h'.cls k hk with e | e
    · rcases h.cls k (by rw [← e]; exact hk) with e' | e'
      · exact .inl (e.trans e')
      · exact .inr e'
    · exact .inr fun off => by rw [← h.head]; exact e off

theorem Grown.rest {s s' : Heap} (h : Grown s s') (hr : Rest s) : Rest s' := by
  intro k off h1 h2 h3
  rw [h.head]
  rcases h.cls k h1 with e | e
  · rw [e] at h1 h2 h3
    exact hr k off h1 h2 h3
  · exact e off

theorem grown_fresh {s s' : Heap} {b : Nat} (h : freshBlock s = some (s', b)) : Grown s s' := by
  unfold freshBlock at h
  split at h
  · split at h
    · simp only [Option.some.injEq, Prod.mk.injEq] at h
      obtain ⟨rfl, rfl⟩ := h
      exact ⟨rfl, fun _ _ => .inl rfl⟩
    · simp at h
  · simp only [Option.some.injEq, Prod.mk.injEq] at h
    obtain ⟨rfl, rfl⟩ := h
    refine ⟨rfl, fun k hk => ?_⟩
    by_cases e : k = s.nblocks
    · subst e
      simp [upd_same] at hk
    · exact .inl (by simp only [upd_other _ _ e])

theorem grown_getBlock {s s' : Heap} {b slot : Nat} (hi : Inv s) (h : getBlock s slot = some (s', b)) : Grown s s' := by
  unfold getBlock at h
  split at h
  · simp only [Option.some.injEq, Prod.mk.injEq] at h
    obtain ⟨rfl, rfl⟩ := h
    exact .refl _
  · split at h
    · rename_i s1 b1 c hf hc
      obtain ⟨s2, b2, e, _, _, _, _, h6, _⟩ := freshBlock_spec hi
      rw [e] at hf
      simp only [Option.some.injEq, Prod.mk.injEq] at hf h
      obtain ⟨rfl, rfl⟩ := hf
      obtain ⟨rfl, rfl⟩ := h
      have g := grown_fresh e
      refine g.trans ⟨rfl, fun k hk => ?_⟩
      by_cases ek : k = b2
      · subst ek
        exact .inr h6
      · exact .inl (by simp only [upd_other _ _ ek])
    · simp at h

theorem grown_curr (s : Heap) {b curr : Nat} {t : Bool} : Grown s { s with blk := upd s.blk b ⟨(s.blk b).cls, curr, t⟩ } := by
  refine ⟨rfl, fun k _ => .inl ?_⟩
  by_cases hk : k = b
  · subst hk; simp only [upd_same]
  · simp only [upd_other _ _ hk]

theorem grown_blockAlloc {b : Nat} : ∀ (n : Nat) (s : Heap) (s' : Heap) (r : Option Nat), blockAlloc n s b = (s', r) → Grown s s'
  | 0, s, s', r, h => by
    simp only [blockAlloc, Prod.mk.injEq] at h
    rw [← h.1]
    exact .refl _
  | n + 1, s, s', r, h => by
    rw [blockAlloc] at h
    split at h
    · dsimp only at h
      split at h
      · exact (grown_curr s).trans (grown_blockAlloc n _ s' r h)
      · simp only [Prod.mk.injEq] at h
        rw [← h.1]
        exact grown_curr s
    · simp only [Prod.mk.injEq] at h
      rw [← h.1]
      exact .refl _

theorem grown_allocLoop {slot c : Nat} (h0 : 0 < slot) (hc : sizeClass[slot]? = some c) (hc0 : c ≠ 0) : ∀ (n : Nat) (s : Heap), Inv s →
    ∀ s' b p, allocLoop slot n s = some (s', b, p) → Grown s s'
  | 0, _, _, _, _, _, h => by simp [allocLoop] at h
  | n + 1, s, hi, s', b, p, h => by
    obtain ⟨s1, b1, g1, g2, g3, _, g5, _, _⟩ := getBlock_spec hi h0 hc hc0
    have gg := grown_getBlock hi g1
    rw [allocLoop, g1] at h
    dsimp only at h
    obtain ⟨s2, r, k1, k2, k3, _, k5⟩ := blockAlloc_spec (b := b1) (MEM_BLOCK_SIZE + 1) s1 g2 (by rw [g5]; exact hc0)
    have gb := grown_blockAlloc _ _ _ _ k1
    rw [k1] at h
    cases r with
    | some q =>
      simp only [Option.some.injEq, Prod.mk.injEq] at h
      obtain ⟨rfl, rfl, rfl⟩ := h
      exact gg.trans gb
    | none =>
      dsimp only at h
      have hb : (s2.blk b1).cls ≠ 0 := by
        rw [k3.cls b1 (by rw [g5]; exact hc0), g5]; exact hc0
      have gp : Grown s2 (popBlock s2 slot b1) := by
        have := grown_curr s2 (b := b1) (curr := 0) (t := (s2.blk b1).touch)
        exact ⟨rfl, this.cls⟩
      exact gg.trans (gb.trans (gp.trans (grown_allocLoop h0 hc hc0 n _ (inv_pop k2 hb) s' b p h)))

theorem largeLoop_small {slots : Nat} : ∀ (n : Nat) (s s' : Heap) (a : LArena) (p : Nat), largeLoop slots n s = some (s', a, p) →
    s'.head = s.head ∧ s'.blk = s.blk
  | 0, _, _, _, _, h => by simp [largeLoop] at h
  | n + 1, s, s', a, p, h => by
    rw [largeLoop] at h
    split at h
    · have := largeLoop_small n _ _ _ _ h
      exact this
    · split at h
      · simp at h
      · simp only [Option.some.injEq, Prod.mk.injEq] at h
        obtain ⟨rfl, _, _⟩ := h
        exact ⟨rfl, rfl⟩
      · have := largeLoop_small n _ _ _ _ h
        exact this

theorem rest_alloc {s s' : Heap} {n size : Nat} {r : Region} (hi : Inv s) (hr : Rest s) (h0 : 0 < size)
    (h : alloc n s size = some (s', r)) : Rest s' := by
  unfold alloc at h
  by_cases hsz : size ≥ MEM_BLOCK_SIZE
  · rw [if_pos hsz] at h
    split at h
    · split at h
      · rename_i s1 a p hl
        simp only [Option.some.injEq, Prod.mk.injEq] at h
        obtain ⟨rfl, rfl⟩ := h
        obtain ⟨e1, e2⟩ := largeLoop_small n s s1 a p hl
        intro k off
        dsimp only
        rw [e1, e2]
        exact hr k off
      · simp at h
    · simp at h
  · rw [if_neg hsz] at h
    have hsz' : size < 4096 := by simpa [MEM_BLOCK_SIZE] using hsz
    obtain ⟨slot, e1, e2, c, below, e3, _, e5, _⟩ := Cora.GC.C29_size_class size h0 (by omega)
    rw [e1] at h
    dsimp only at h
    rw [show (slot : Int).toNat = slot by omega] at h
    split at h
    · rename_i s1 b p hl
      simp only [Option.some.injEq, Prod.mk.injEq] at h
      obtain ⟨rfl, rfl⟩ := h
      have hc0 : c ≠ 0 := by omega
      obtain ⟨k1, k2, k3, k4, k5, k6, k7⟩ := allocLoop_spec e2 e3 hc0 n s hi s1 b p hl
      have g := (grown_allocLoop e2 e3 hc0 n s hi s1 b p hl).rest hr
      intro k off h1 h2 h3
      dsimp only at h1 h2 h3 ⊢
      have h4 := g k off h1 h2 h3
      by_cases e : k = b
      · subst e
        rw [upd_same, upd_other _ _ (by rw [k3] at h3; omega)]
        exact h4
      · rw [upd_other _ _ e]
        exact h4
    · simp at h

theorem rest_step {s s' : Heap} (hi : Inv s) (hr : Rest s) (h : Step s s') : Rest s' := by
  cases h with
  | env h =>
    intro k off h1 h2 h3
    rw [h.cls] at h1 h2 h3
    rw [h.rest k off h1 h2 h3]
    exact hr k off h1 h2 h3
  | grayGet h =>
    obtain ⟨s1, b, e, _⟩ := freshBlock_spec hi
    rw [grayGet, e] at h
    simp only [Option.some.injEq] at h
    subst h
    have := (grown_fresh e).rest hr
    exact this
  | @grayPut b h =>
    intro k off h1 h2 h3
    simp only [grayPut] at h1 h2 h3 ⊢
    by_cases e : k = b
    · subst e
      rw [upd_same]
    · rw [upd_other _ _ e]
      exact hr k off h1 h2 h3
  | sweep hl h => exact hr

theorem rest_flip {s : Heap} (hr : Rest s) : Rest (flip s) := by
  intro k off h1 h2 h3
  obtain ⟨c1, _, c3⟩ := flip_cls h1
  rw [c3] at h2 h3
  rw [flip_head]
  split
  · rfl
  · exact hr k off c1 h2 h3

theorem history_rest {s : Heap} {G : List Region} (h : History s G) : Rest s := by
  induction h with
  | init => intro k off h1; simp [Heap.init] at h1
  | alloc h h0 ha ih => exact rest_alloc (history_inv h).1 ih h0 ha
  | step h hs ih => exact rest_step (history_inv h).1 ih hs
  | flip _ ih => exact rest_flip ih

/-! ### the arenas -/

theorem mem_arenas {start : Bool → Nat → Nat} {s : Heap} {A : Arena} : A ∈ arenas start s ↔
    (∃ n, n * 16384 < s.nblocks ∧ A = ⟨start false n, min 16384 (s.nblocks - n * 16384), .small n⟩) ∨
    ∃ a, a ∈ s.large ++ s.parked ∧ A = largeArena start a := by
  simp only [arenas, smallArenas, BLOCKS, List.mem_append, List.mem_map, List.mem_range]
  constructor
  · rintro (⟨n, hn, rfl⟩ | ⟨a, ha, rfl⟩)
    · exact .inl ⟨n, by omega, rfl⟩
    · exact .inr ⟨a, ha.symm, rfl⟩
  · rintro (⟨n, hn, rfl⟩ | ⟨a, ha, rfl⟩)
    · exact .inl ⟨n, by omega, rfl⟩
    · exact .inr ⟨a, ha.symm, rfl⟩

theorem contains_bound {A : Arena} {x : Nat} (hA : A.idx ≤ 16384) (h : A.contains x = true) : A.start ≤ x ∧ x < A.start + 64 * 1024 * 1024 := by
  simp only [Arena.contains, Bool.and_eq_true, decide_eq_true_eq] at h
  have h2 : A.idx * MEM_BLOCK_SIZE ≤ 16384 * MEM_BLOCK_SIZE := Nat.mul_le_mul_right _ hA
  rw [show 16384 * MEM_BLOCK_SIZE = 64 * 1024 * 1024 by decide] at h2
  generalize A.idx * MEM_BLOCK_SIZE = y at h h2
  omega

/-- an address is in at most one arena -/
theorem arena_unique {start : Bool → Nat → Nat} {s : Heap} (hi : Inv s) (m : Mapped start s) {A B : Arena} (hA : A ∈ arenas start s)
    (hB : B ∈ arenas start s) {x : Nat} (h1 : A.contains x = true) (h2 : B.contains x = true) : A = B := by
  have bd : ∀ C ∈ arenas start s, C.idx ≤ 16384 := by
    intro C hC
    rcases mem_arenas.mp hC with ⟨n, _, rfl⟩ | ⟨a, ha, rfl⟩
    · exact Nat.min_le_left _ _
    · exact (hi.large a ha).1.bound
  replace h1 := contains_bound (bd A hA) h1
  replace h2 := contains_bound (bd B hB) h2
  rcases mem_arenas.mp hA with ⟨n, hn, rfl⟩ | ⟨a, ha, rfl⟩
  · rcases mem_arenas.mp hB with ⟨n', hn', rfl⟩ | ⟨b, hb, rfl⟩
    · dsimp only at h1 h2
      by_cases e : n = n'
      · subst e; rfl
      · exfalso
        have := m.apart false n false n' (by simpa [Made] using hn) (by simpa [Made] using hn') (by simpa using e)
        omega
    · exfalso
      dsimp only [largeArena] at h1 h2
      have hb' := hi.large b hb
      have hb2 := hb'.1.bound
      simp only [BLOCKS] at hb2
      have := m.apart false n true b.id (by simpa [Made] using hn) (by simpa [Made] using hb'.2) (by simp)
      omega
  · have ha' := hi.large a ha
    have ha2 := ha'.1.bound
    simp only [BLOCKS] at ha2
    rcases mem_arenas.mp hB with ⟨n', hn', rfl⟩ | ⟨b, hb, rfl⟩
    · exfalso
      dsimp only [largeArena] at h1 h2
      have := m.apart false n' true a.id (by simpa [Made] using hn') (by simpa [Made] using ha'.2) (by simp)
      omega
    · have hb' := hi.large b hb
      have hb2 := hb'.1.bound
      simp only [BLOCKS] at hb2
      dsimp only [largeArena] at h1 h2
      by_cases e : a.id = b.id
      · rw [same_id hi.ids ha hb e]
      · exfalso
        have := m.apart true a.id true b.id (by simpa [Made] using ha'.2) (by simpa [Made] using hb'.2) (by simpa using e)
        omega

/-- the search finds the arena, in whatever order -/
theorem gcContains_some {start : Bool → Nat → Nat} {s : Heap} (hi : Inv s) (m : Mapped start s) {order : List Arena}
    (ho : order.Perm (arenas start s)) {A : Arena} (hA : A ∈ arenas start s) {x : Nat} (h : A.contains x = true) : gcContains order x = some A := by
  unfold gcContains
  cases hf : order.find? (·.contains x) with
  | none =>
    rw [List.find?_eq_none] at hf
    exact absurd h (hf A (ho.mem_iff.mpr hA))
  | some B =>
    have h1 := List.find?_some hf
    have h2 := ho.mem_iff.mp (List.mem_of_find?_eq_some hf)
    rw [arena_unique hi m h2 hA h1 h]

theorem gcContains_mem {start : Bool → Nat → Nat} {s : Heap} {order : List Arena} (ho : order.Perm (arenas start s)) {A : Arena} {x : Nat}
    (h : gcContains order x = some A) : A ∈ arenas start s ∧ A.contains x = true :=
  ⟨ho.mem_iff.mp (List.mem_of_find?_eq_some h), by
    have := List.find?_some (p := fun A : Arena => A.contains x) h
    exact this⟩

/-- each block belongs to an object -/
theorem tiles_find {a : LArena} {i j : Nat} (h : Tiles a i j) {x : Nat} (h1 : i ≤ x) (h2 : x < j) :
    ∃ t, Tiles a i t ∧ Tiles a t j ∧ t ≤ x ∧ x < t + lslots (a.head t) ∧ a.base x = t := by
  induction h with
  | nil => omega
  | @cons i j c1 c2 c3 ih =>
    by_cases e : x < i + lslots (a.head i)
    · exact ⟨i, .nil _, .cons c1 c2 c3, h1, e, c2 x h1 e⟩
    · obtain ⟨t, t1, t2, t3⟩ := ih (by omega) h2
      exact ⟨t, .cons c1 c2 t1, t2, t3⟩

theorem class_eight {s : Heap} (hi : Inv s) {k : Nat} (h : (s.blk k).cls ≠ 0) : 8 ∣ (s.blk k).cls ∧ (s.blk k).cls ≤ 4096 := by
  obtain ⟨slot, _, h2⟩ := hi.table k h
  have hm := List.mem_of_getElem? h2
  have : ∀ x ∈ sizeClass, 8 ∣ x ∧ x ≤ 4096 := by decide
  exact this _ hm

theorem object_live {s : Heap} (hi : Inv s) {r : Region} : Object s r ↔ Live s r := by
  constructor
  · rintro (⟨_, h1, h2, h3, h4⟩ | ⟨h1, h2, h3⟩)
    · exact .inl ⟨_, _, ⟨h1, h2, h3, h4⟩, rfl⟩
    · exact .inr ⟨_, _, ⟨h1, h2, h3⟩, rfl⟩
  · rintro (⟨k, off, h, rfl⟩ | ⟨a, t, h, rfl⟩)
    · exact .small (hi.made k h.cls).1 h.cls h.dvd h.fits h.used
    · exact .large h.mem h.tile h.used

end Cora.Alloc
