import Verif.Lemmas.AllocStep
/-
Property theorem C34 (two live objects never share memory). Specification: Verif/Spec/Alloc.lean.
-/
namespace Cora.Alloc
open Spec.Alloc
open Cora.GC (upd vcmp sizeClass getSlotBySize MEM_BLOCK_SIZE)

/-- C34. In every history of allocations of any sizes, marking, writes of the program, sweeping and flips: no two objects that have
been handed out and not yet been dropped share a byte, and the allocator still sees each of them as in use. -/
theorem C34_no_overlap {s : Heap} {G : List Region} (h : History s G) :
    G.Pairwise Disjoint ∧ ∀ r ∈ G, inUseAt s.gv s r = true := by
  obtain ⟨h1, h2, h3⟩ := history_inv h
  exact ⟨h3, fun r hr => live_inUse h1 (h2 r hr)⟩

/-- C34. What an allocation gives is large enough, lies in one arena of 64 MB, and has no byte in common with any object still in
use. -/
theorem C34_allocation {s s' : Heap} {G : List Region} {n size : Nat} {r : Region} (h : History s G) (h0 : 0 < size)
    (ha : alloc n s size = some (s', r)) :
    size ≤ r.hi - r.lo ∧ r.hi ≤ 64 * 1024 * 1024 ∧ ∀ r' ∈ G, Disjoint r' r := by
  obtain ⟨h1, h2, _⟩ := history_inv h
  obtain ⟨_, _, a3, a4, a5⟩ := alloc_spec h1 h0 ha
  exact ⟨a4, a5, fun r' hr' => (a3 r' (h2 r' hr')).2⟩

/-- C34. A small object stays in its block of 4096 bytes. -/
theorem C34_small_in_block {s s' : Heap} {G : List Region} {n size : Nat} {r : Region} (h : History s G) (h0 : 0 < size)
    (h1 : size < 4096) (ha : alloc n s size = some (s', r)) : r.large = false ∧ r.lo / 4096 = (r.hi - 1) / 4096 := by
  obtain ⟨hi, _, _⟩ := history_inv h
  unfold alloc at ha
  rw [if_neg (by simp only [MEM_BLOCK_SIZE]; omega)] at ha
  obtain ⟨slot, e1, e2, c, below, e3, _, e5, _⟩ := Cora.GC.C29_size_class size h0 (by omega)
  rw [e1] at ha
  dsimp only at ha
  rw [show (slot : Int).toNat = slot by omega] at ha
  split at ha
  · rename_i s1 b p hl
    simp only [Option.some.injEq, Prod.mk.injEq] at ha
    obtain ⟨rfl, rfl⟩ := ha
    obtain ⟨_, _, k3, _, k5, _, _⟩ := allocLoop_spec e2 e3 (by omega) n s hi s1 b p hl
    simp only [smallRegion, k3, BLOCKS, MEM_BLOCK_SIZE]
    refine ⟨trivial, ?_⟩
    omega
  · simp at ha

/-- C34, partial: every allocation of at most 16383 blocks of 4096 bytes succeeds: no assertion of the allocator fails, and it ends. What is missing:
larger sizes, see below. -/
theorem C34_allocation_succeeds_partial {s : Heap} {G : List Region} (h : History s G) {size : Nat} (h0 : 0 < size) (h1 : size ≤ 16383 * 4096) :
    ∃ n s' r, alloc n s size = some (s', r) := alloc_some (history_inv h).1 h0 h1

theorem largeLoop_never : ∀ (n : Nat) (s : Heap) (a : LArena), (s.large = [] ∨ s.large = [a] ∧ a.idx = 0 ∧ a.curr = 0) →
    largeLoop BLOCKS n s = none
  | 0, _, _, _ => rfl
  | n + 1, s, a, h => by
    rw [largeLoop]
    rcases h with h | ⟨h, h1, h2⟩
    · rw [h]
      exact largeLoop_never n _ (LArena.new s.made) (.inr ⟨rfl, rfl, rfl⟩)
    · rw [h]
      dsimp only
      have : allocIn s.gv BLOCKS ROUNDS a = some (a, none) := by
        rw [show ROUNDS = BLOCKS + 1 from rfl, allocIn, if_pos (by rw [h2]; omega), if_pos (by rw [h1, h2]), if_pos (by rw [h2]; omega)]
      rw [this]
      exact largeLoop_never n _ a (.inl rfl)

/-- C34 does not hold for the sizes between 16383 blocks and 64 MB, which pass the assertion of the allocator (src/gc.c:501): with no arena for large
objects yet, the allocation maps arenas for ever. -/
theorem C34_whole_arena_never_ends {s : Heap} {size : Nat} (hs : s.large = []) (h1 : 16383 * 4096 < size) (h2 : size < 64 * 1024 * 1024) :
    ∀ n, alloc n s size = none := by
  intro n
  have hb : blocksOf size = BLOCKS := by simp only [blocksOf, MEM_BLOCK_SIZE, BLOCKS]; omega
  unfold alloc
  rw [if_pos (by simp only [MEM_BLOCK_SIZE]; omega), if_pos (by simp only [MEM_BLOCK_SIZE, BLOCKS]; omega), hb,
    largeLoop_never n s (LArena.new 0) (.inl hs)]

/-- the hypotheses are met: there are histories with any objects in use -/
theorem some_history : ∀ sizes : List Nat, (∀ x ∈ sizes, 0 < x ∧ x ≤ 16383 * 4096) → ∃ s G, History s G ∧ G.length = sizes.length
  | [], _ => ⟨_, _, .init, rfl⟩
  | x :: xs, h => by
    obtain ⟨s, G, h1, h2⟩ := some_history xs fun y hy => h y (List.mem_cons_of_mem _ hy)
    obtain ⟨n, s', r, h3⟩ := C34_allocation_succeeds_partial h1 (h x List.mem_cons_self).1 (h x List.mem_cons_self).2
    exact ⟨s', r :: G, .alloc h1 (h x List.mem_cons_self).1 h3, by simp [h2]⟩

example : ∃ s G, History s G ∧ G.length = 5 := some_history [24, 100, 5000, 4096, 40000] (by decide)

/-- allocating the sizes one after the other, with a flip where the size is 0: where the objects are -/
def places : Heap → List Nat → Option (List (Nat × Nat))
  | _, [] => some []
  | s, 0 :: l => places (flip s) l
  | s, size :: l =>
    match alloc 10 s size with
    | some (s, r) => (places s l).map ((r.lo, r.hi) :: ·)
    | none => none

/-- memory is used again after a flip; what is left of a larger object can be used by a smaller one -/
example : places .init [5000, 9000, 0, 4100, 4200, 24, 24] =
    some [(0, 8192), (8192, 20480), (0, 8192), (8192, 16384), (0, 24), (24, 48)] := by decide +kernel

/-- the next allocation after such a history, as `C34_allocation` and `C34_small_in_block` take it -/
example : ∃ s G n s' r, History s G ∧ G.length = 5 ∧ alloc n s 100 = some (s', r) ∧ 100 ≤ r.hi - r.lo ∧ r.large = false := by
  obtain ⟨s, G, h, l⟩ := some_history [24, 100, 5000, 4096, 40000] (by decide)
  obtain ⟨n, s', r, e⟩ := C34_allocation_succeeds_partial h (size := 100) (by decide) (by decide)
  exact ⟨s, G, n, s', r, h, l, e, (C34_allocation h (by decide) e).1, (C34_small_in_block h (by decide) (by decide) e).1⟩
example : ∀ n, alloc n .init 67108000 = none := C34_whole_arena_never_ends rfl (by decide) (by decide)

end Cora.Alloc
