import Verif.Lemmas.Pointer
/-
Property theorem C102 (the collector finds the object that a word points into). Specification: Verif/Spec/Pointer.lean.
-/
namespace Cora.Alloc
open Spec.Alloc
open Cora.GC (upd vcmp sizeClass getSlotBySize MEM_BLOCK_SIZE)

/-- an object in use is found from every address in it -/
theorem found {start : Bool → Nat → Nat} {s : Heap} (hi : Inv s) (m : Mapped start s) {order : List Arena} (ho : order.Perm (arenas start s))
    {w : Obj} (hw : isScmHead w = true) {r : Region} (hr : Object s r) (h1 : first start r ≤ (ptrOf w).toNat)
    (h2 : (ptrOf w).toNat < last start r) :
    checkPointer order s w = some (some (first start r, ((ptrOf w).toNat - start r.large r.arena) / 4096)) := by
  generalize hx : (ptrOf w).toNat = x at h1 h2
  unfold checkPointer
  rw [if_neg (by simp [hw])]
  dsimp only
  rw [hx]
  cases hr with
  | @small k off hk hc hd hf hu =>
    simp only [first, last, smallRegion, BLOCKS, MEM_BLOCK_SIZE] at h1 h2 ⊢
    have hn : k / 16384 * 16384 < s.nblocks := by omega
    have hA : (⟨start false (k / 16384), min 16384 (s.nblocks - k / 16384 * 16384), .small (k / 16384)⟩ : Arena) ∈ arenas start s :=
      mem_arenas.mpr (.inl ⟨_, hn, rfl⟩)
    have hlt : k % 16384 + 1 ≤ min 16384 (s.nblocks - k / 16384 * 16384) := by
      rw [Nat.le_min]
      omega
    rw [gcContains_some hi m ho hA (x := x)]
    · dsimp only
      have e1 : (x - start false (k / 16384)) / 4096 = k % 16384 := by omega
      have e2 : k / 16384 * 16384 + k % 16384 = k := by omega
      rw [e1, e2, inSmall, if_neg hc]
      dsimp only
      obtain ⟨q, rfl⟩ := hd
      have e3 : (x - (start false (k / 16384) + k % 16384 * 4096)) / (s.blk k).cls = q := by
        have : x - (start false (k / 16384) + k % 16384 * 4096) = (s.blk k).cls * q + (x - (start false (k / 16384) + (k % 16384 * 4096 + (s.blk k).cls * q))) := by
          omega
        rw [this, Nat.mul_add_div (by omega), Nat.div_eq_of_lt (by omega)]
        omega
      rw [e3, Nat.mul_comm q]
      have h8 := (class_eight hi hc).1
      have : 8 ≤ (s.blk k).cls := Nat.le_of_dvd (by omega) h8
      rw [if_pos (by simp only [HEAD, MEM_BLOCK_SIZE]; omega), if_pos hu]
      simp only [Option.some.injEq, Prod.mk.injEq, and_true]
      omega
    · simp only [Arena.contains, Bool.and_eq_true, decide_eq_true_eq]
      simp only [MEM_BLOCK_SIZE]
      have := Nat.mul_le_mul_right 4096 hlt
      omega
  | @large a t ha ht hu =>
    simp only [first, last, largeRegion, MEM_BLOCK_SIZE] at h1 h2 ⊢
    have hA : largeArena start a ∈ arenas start s := mem_arenas.mpr (.inr ⟨a, ha, rfl⟩)
    have he := tile_end ht
    have hb := (tiles_first ht.2.1 ht.2.2).2.1 ((x - start true a.id) / 4096) (by omega) (by omega)
    rw [gcContains_some hi m ho hA (x := x)]
    · dsimp only [largeArena]
      rw [hb, inLarge, if_pos ht.2.2, if_pos hu]
      rfl
    · simp only [Arena.contains, Bool.and_eq_true, decide_eq_true_eq]
      simp only [largeArena, MEM_BLOCK_SIZE]
      clear hb
      have := Nat.mul_le_mul_right 4096 he
      omega

/-- what is found is an object in use -/
theorem found_only {start : Bool → Nat → Nat} {s : Heap} (hi : Inv s) (hrest : Rest s) {order : List Arena}
    (ho : order.Perm (arenas start s)) (w : Obj) :
    ∃ res, checkPointer order s w = some res ∧ ∀ p b, res = some (p, b) → isScmHead w = true ∧ ∃ r, Object s r ∧ p = first start r ∧
      first start r ≤ (ptrOf w).toNat ∧ (ptrOf w).toNat < last start r := by
  generalize hx : (ptrOf w).toNat = x
  unfold checkPointer
  cases hw : isScmHead w with
  | false => exact ⟨none, by simp, by simp⟩
  | true =>
    rw [if_neg (by simp)]
    dsimp only
    rw [hx]
    cases hA : gcContains order x with
    | none => exact ⟨none, rfl, by simp⟩
    | some A =>
      obtain ⟨h1, h2⟩ := gcContains_mem ho hA
      simp only [Arena.contains, Bool.and_eq_true, decide_eq_true_eq] at h2
      simp only [MEM_BLOCK_SIZE] at h2 ⊢
      rcases mem_arenas.mp h1 with ⟨n, hn, rfl⟩ | ⟨a, ha, rfl⟩
      · dsimp only at h2 ⊢
        have hm := Nat.min_le_left 16384 (s.nblocks - n * 16384)
        have hm' := Nat.min_le_right 16384 (s.nblocks - n * 16384)
        generalize min 16384 (s.nblocks - n * 16384) = mi at h2 hm hm'
        generalize hidx : (x - start false n) / 4096 = idx
        simp only [BLOCKS]
        generalize hk : n * 16384 + idx = k
        have hkn : k / 16384 = n := by omega
        have hki : k % 16384 = idx := by omega
        unfold inSmall
        split
        · exact ⟨none, rfl, by simp⟩
        · rename_i hc
          dsimp only
          obtain ⟨c8, c4⟩ := class_eight hi hc
          have hdm := Nat.div_add_mod (x - (start false n + idx * 4096)) (s.blk k).cls
          have hml := Nat.mod_lt (x - (start false n + idx * 4096)) (Nat.pos_of_ne_zero hc)
          generalize (x - (start false n + idx * 4096)) / (s.blk k).cls = pos at hdm ⊢
          rw [Nat.mul_comm] at hdm
          have hd : 8 ∣ pos * (s.blk k).cls := Nat.dvd_trans c8 ⟨pos, Nat.mul_comm _ _⟩
          rw [if_pos (by simp only [HEAD, MEM_BLOCK_SIZE]; omega)]
          split
          · rename_i hu
            refine ⟨_, rfl, fun p b e => ⟨trivial, smallRegion k (pos * (s.blk k).cls) (s.blk k).cls, ?_, ?_, ?_, ?_⟩⟩
            · refine .small (by omega) hc ⟨pos, Nat.mul_comm _ _⟩ ?_ hu
              refine Classical.byContradiction fun hh => ?_
              rw [hrest k _ hc ⟨pos, Nat.mul_comm _ _⟩ (by omega)] at hu
              simp [inuse_zero] at hu
            · simp only [Option.some.injEq, Prod.mk.injEq] at e
              simp only [first, smallRegion, BLOCKS, MEM_BLOCK_SIZE, hkn, hki]
              omega
            · simp only [first, smallRegion, BLOCKS, MEM_BLOCK_SIZE, hkn, hki]
              omega
            · simp only [last, smallRegion, BLOCKS, MEM_BLOCK_SIZE, hkn, hki]
              omega
          · exact ⟨none, rfl, by simp⟩
      · dsimp only [largeArena] at h2 ⊢
        obtain ⟨t, t1, t2, t3, t4, t5⟩ := tiles_find (tiles_trans (hi.large a ha).1.before (hi.large a ha).1.after)
          (Nat.zero_le ((x - start true a.id) / 4096)) (by omega)
        have t6 : t < a.idx := by omega
        rw [t5, inLarge, if_pos t6]
        split
        · rename_i hu
          refine ⟨_, rfl, fun p b e => ⟨trivial, largeRegion a.id t (lslots (a.head t)), .large ha ⟨t1, t2, t6⟩ hu, ?_, ?_, ?_⟩⟩
          · simp only [Option.some.injEq, Prod.mk.injEq, MEM_BLOCK_SIZE] at e
            simp only [first, largeRegion, MEM_BLOCK_SIZE]
            omega
          · simp only [first, largeRegion, MEM_BLOCK_SIZE]
            omega
          · simp only [last, largeRegion, MEM_BLOCK_SIZE]
            omega
        · exact ⟨none, rfl, by simp⟩

/-- C102. In every history, wherever the arenas are and in whatever order they are looked through: a reference to any byte of an object in use
leads to the start of this object, and to the block of this byte. -/
theorem C102_found {start : Bool → Nat → Nat} {s : Heap} {G : List Region} (h : History s G) (m : Mapped start s) {order : List Arena}
    (ho : order.Perm (arenas start s)) {r : Region} (hr : r ∈ G) {x : Nat} (h1 : first start r ≤ x) (h2 : x < last start r)
    {t : BitVec 8} (ht : t = TAG_BYTES ∨ t = TAG_CONS ∨ t = TAG_NATIVE ∨ t = TAG_PTR) :
    ∃ w, makeNaNPtr (BitVec.ofNat 64 x) t = some w ∧
      checkPointer order s w = some (some (first start r, (x - start r.large r.arena) / 4096)) := by
  obtain ⟨hi, hl, _⟩ := history_inv h
  have hx : x < 2 ^ 48 := by
    have hm : Made s r.large r.arena ∧ r.hi ≤ 64 * 1024 * 1024 := by
      rcases hl r hr with ⟨k, off, hs, rfl⟩ | ⟨a, t, hs, rfl⟩
      · have := (hi.made k hs.cls).1
        have := hs.fits
        simp only [Made, smallRegion, BLOCKS, MEM_BLOCK_SIZE, Bool.false_eq_true, if_false]
        omega
      · have h3 := hi.large a hs.mem
        have h4 := tile_end hs.tile
        have h5 := Nat.mul_le_mul_right 4096 (Nat.le_trans h4 h3.1.bound)
        simp only [BLOCKS] at h5
        simp only [Made, largeRegion, MEM_BLOCK_SIZE, if_true]
        exact ⟨h3.2, by omega⟩
    have := m.below _ _ hm.1
    simp only [last] at h2
    omega
  have h0 : BitVec.ofNat 64 x >>> 48 = 0 := by
    apply BitVec.eq_of_toNat_eq
    rw [BitVec.toNat_ushiftRight, BitVec.toNat_ofNat, Nat.shiftRight_eq_div_pow]
    have : x % 2 ^ 64 < 2 ^ 48 := by omega
    rw [Nat.div_eq_of_lt this]
    rfl
  refine ⟨_, makeNaNPtr_eq h0 t, ?_⟩
  have hp : (ptrOf (packed (BitVec.ofNat 64 x) t)).toNat = x := by
    rw [ptrOf_packed h0, BitVec.toNat_ofNat]
    omega
  have hw : isScmHead (packed (BitVec.ofNat 64 x) t) = true := by
    rw [isScmHead, isobj_packed, tagOf_packed h0 t (by rcases ht with rfl | rfl | rfl | rfl <;> decide)]
    rcases ht with rfl | rfl | rfl | rfl <;> decide
  have := found hi m ho hw ((object_live hi).mpr (hl r hr)) (by rw [hp]; exact h1) (by rw [hp]; exact h2)
  rw [this, hp]

/-- C102. Of all words, these are the only ones that lead to an object: the others (numbers, symbols, constants, references to memory that is not in use, leftovers)
lead to none; in no case is a header read that is not there. -/
theorem C102_exact {start : Bool → Nat → Nat} {s : Heap} {G : List Region} (h : History s G) (m : Mapped start s) {order : List Arena}
    (ho : order.Perm (arenas start s)) (w : Obj) :
    ∃ res, checkPointer order s w = some res ∧ ∀ p, (∃ b, res = some (p, b)) ↔
      isScmHead w = true ∧ ∃ r, Object s r ∧ p = first start r ∧ first start r ≤ (ptrOf w).toNat ∧ (ptrOf w).toNat < last start r := by
  obtain ⟨res, h1, h2⟩ := found_only (history_inv h).1 (history_rest h) ho w
  refine ⟨res, h1, fun p => ⟨fun ⟨b, e⟩ => h2 p b e, ?_⟩⟩
  rintro ⟨hw, r, hr, rfl, h3, h4⟩
  rw [found (history_inv h).1 m ho hw hr h3 h4] at h1
  exact ⟨_, (Option.some.inj h1).symm⟩

/-- C102. What an allocation has handed out and no flip has dropped is an object in use. -/
theorem C102_objects {s : Heap} {G : List Region} (h : History s G) : ∀ r ∈ G, Object s r :=
  fun r hr => (object_live (history_inv h).1).mpr ((history_inv h).2.1 r hr)

/-! ### the hypotheses are met -/

/-- one arena behind the other -/
def sampleStart (large : Bool) (n : Nat) : Nat := (if large then 2 ^ 40 else 2 ^ 30) + n * (64 * 1024 * 1024)

/-- arenas can be like this as long as there are not too many -/
theorem sample_mapped {s : Heap} (h1 : s.nblocks ≤ 16384 * 1000) (h2 : s.made ≤ 1000) : Mapped sampleStart s where
  below l n h := by
    cases l <;> simp only [Made, sampleStart, Bool.false_eq_true, if_false, if_true] at h ⊢ <;> omega
  apart l n l' n' h h' e := by
    cases l <;> cases l' <;> simp only [Made, sampleStart, Bool.false_eq_true, if_false, if_true, ne_eq, Prod.mk.injEq, true_and, reduceCtorEq, false_and] at h h' e ⊢ <;> omega

/-- allocating the sizes one after the other -/
def allocAll : Heap → List Nat → Option Heap
  | s, [] => some s
  | s, size :: l =>
    match alloc 10 s size with
    | some (s, _) => allocAll s l
    | none => none

theorem allocAll_history : ∀ {l : List Nat} {s s' : Heap} {G : List Region}, (∀ x ∈ l, 0 < x) → History s G → allocAll s l = some s' →
    ∃ G', History s' G' ∧ G'.length = G.length + l.length
  | [], s, s', G, _, h, e => by
    simp only [allocAll, Option.some.injEq] at e
    subst e
    exact ⟨G, h, by simp⟩
  | x :: l, s, s', G, hx, h, e => by
    rw [allocAll] at e
    split at e
    · rename_i s1 r ha
      obtain ⟨G', h1, h2⟩ := allocAll_history (fun y hy => hx y (List.mem_cons_of_mem _ hy)) (.alloc h (hx x List.mem_cons_self) ha) e
      exact ⟨G', h1, by rw [h2]; simp; omega⟩
    · simp at e

/-- what a word with this tag and address leads to, after these allocations -/
def lookAt (sizes : List Nat) (t : BitVec 8) (x : Nat) : Option (Option (Nat × Nat)) := do
  let s ← allocAll .init sizes
  checkPointer (arenas sampleStart s) s (← makeNaNPtr (BitVec.ofNat 64 x) t)

/-- there is such a history, with five objects, in two blocks and one arena for large ones -/
example : ∃ s G, History s G ∧ G.length = 5 ∧ Mapped sampleStart s ∧ s.large.length = 1 := by
  obtain ⟨s, hs, h1, h2, h3⟩ : ∃ s, allocAll .init [24, 24, 1500, 9000, 5000] = some s ∧ s.nblocks = 2 ∧ s.made = 1 ∧ s.large.length = 1 := by
    cases h : allocAll .init [24, 24, 1500, 9000, 5000] with
    | none => exact absurd (show (allocAll .init [24, 24, 1500, 9000, 5000]).isSome = true by decide +kernel) (by simp [h])
    | some s =>
      have : (allocAll .init [24, 24, 1500, 9000, 5000]).map (fun s => (s.nblocks, s.made, s.large.length)) = some (2, 1, 1) := by decide +kernel
      rw [h] at this
      simp only [Option.map_some, Option.some.injEq, Prod.mk.injEq] at this
      exact ⟨s, rfl, this.1, this.2.1, this.2.2⟩
  obtain ⟨G, hG, hl⟩ := allocAll_history (by decide) .init hs
  exact ⟨s, G, hG, hl, sample_mapped (by omega) (by omega), h3⟩

/-- the start of the second object, a byte inside of it, and one behind it, where nothing is in use -/
example : lookAt [24, 24, 1500, 9000, 5000] TAG_CONS (2 ^ 30 + 24) = some (some (2 ^ 30 + 24, 0)) ∧
    lookAt [24, 24, 1500, 9000, 5000] TAG_CONS (2 ^ 30 + 47) = some (some (2 ^ 30 + 24, 0)) ∧
    lookAt [24, 24, 1500, 9000, 5000] TAG_CONS (2 ^ 30 + 48) = some none := by decide +kernel

/-- the same number as a symbol; the rest of a block; the last block of a large object, and the next object -/
example : lookAt [24, 24, 1500, 9000, 5000] TAG_SYMBOL (2 ^ 30 + 24) = some none ∧
    lookAt [24, 24, 1500, 9000, 5000] TAG_PTR (2 ^ 30 + 4096 + 4000) = some none ∧
    lookAt [24, 24, 1500, 9000, 5000] TAG_PTR (2 ^ 40 + 8999) = some (some (2 ^ 40, 2)) ∧
    lookAt [24, 24, 1500, 9000, 5000] TAG_BYTES (2 ^ 40 + 3 * 4096) = some (some (2 ^ 40 + 3 * 4096, 3)) := by decide +kernel

end Cora.Alloc
