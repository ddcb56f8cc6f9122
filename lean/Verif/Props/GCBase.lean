import Verif.Model.GCBase
/-
Property theorems C29 (size classes), C30 (version comparison), C33 (gray queue).
-/
namespace Cora.GC

/-! ## C29 -/

/-- C29. Every request of 1 to 4095 bytes (larger ones are allocated as whole blocks), and 4096 itself, is
sent to a class of the table whose slots are large enough, and the next smaller class would not be. -/
theorem C29_size_class (size : Nat) (h1 : 0 < size) (h2 : size ≤ 4096) :
    ∃ slot : Nat, getSlotBySize size = some (slot : Int) ∧ 0 < slot ∧ ∃ sz below : Nat,
      sizeClass[slot]? = some sz ∧ sizeClass[slot - 1]? = some below ∧ size ≤ sz ∧ below < size := by
  have key : ∀ q r : Fin 64,
      ((getSlotBySize (64 * q.val + r.val + 1)).bind (fun s => if 0 < s then
        (sizeClass[s.toNat]?).bind (fun sz => (sizeClass[s.toNat - 1]?).map
          (fun b => decide (64 * q.val + r.val + 1 ≤ sz ∧ b < 64 * q.val + r.val + 1)))
        else none)) = some true := by decide +kernel
  have := key ⟨(size - 1) / 64, by omega⟩ ⟨(size - 1) % 64, by omega⟩
  simp only at this
  rw [show 64 * ((size - 1) / 64) + (size - 1) % 64 + 1 = size by omega] at this
  simp only [Option.bind_eq_some_iff] at this
  obtain ⟨s, hs, this⟩ := this
  split at this
  · rename_i hpos
    simp only [Option.bind_eq_some_iff, Option.map_eq_some_iff, decide_eq_true_eq] at this
    obtain ⟨sz, e1, b, e2, e3⟩ := this
    refine ⟨s.toNat, ?_, by omega, sz, b, e1, e2, e3.1, e3.2⟩
    rw [hs]; congr 1; omega
  · simp at this

/-- C29: a block filled with slots of one class is found again under the same class (src/gc.c:888-889),
so recycling a block never changes its slot size. -/
theorem C29_class_of_class (slot : Nat) (h : 0 < slot) (sz : Nat) (hs : sizeClass[slot]? = some sz) :
    getSlotBySize sz = some (slot : Int) := by
  have hl : slot < 19 := by
    have := (List.getElem?_eq_some_iff.mp hs).1
    simpa [sizeClass] using this
  have key : ∀ s : Fin 19, 0 < s.val → (sizeClass[s.val]?).bind getSlotBySize = some (s.val : Int) := by decide
  have := key ⟨slot, hl⟩ h
  simpa [hs] using this

/-! ## C30 -/

/-- C30. For any two unbounded counters less than half the range apart, comparing their low six bits
gives the order of the counters: 0 when equal, negative when the first is smaller, positive when it is
larger. -/
theorem C30_version_order (a b : Nat) (h1 : a < b + 32) (h2 : b < a + 32) :
    ∃ c, versionCmp ((a % 64 : Nat) : Int) ((b % 64 : Nat) : Int) = some c ∧
      (c = 0 ↔ a = b) ∧ (c < 0 ↔ a < b) ∧ (c > 0 ↔ a > b) := by
  unfold versionCmp HALF_VERSION
  have ha : (a % 64 : Nat) < 64 := Nat.mod_lt _ (by decide)
  have hb : (b % 64 : Nat) < 64 := Nat.mod_lt _ (by decide)
  rw [if_pos (by omega)]
  simp only
  by_cases e : ((b % 64 : Nat) : Int) - ((a % 64 : Nat) : Int) = 0
  · refine ⟨0, by rw [if_pos e], ?_⟩
    omega
  · rw [if_neg e]
    by_cases e2 : ((b % 64 : Nat) : Int) - ((a % 64 : Nat) : Int) > -32 ∧
        ((b % 64 : Nat) : Int) - ((a % 64 : Nat) : Int) < 32
    · rw [if_pos e2]
      by_cases e3 : ((b % 64 : Nat) : Int) - ((a % 64 : Nat) : Int) > 0
      · rw [if_pos e3]; exact ⟨-1, rfl, by omega⟩
      · rw [if_neg e3]; exact ⟨1, rfl, by omega⟩
    · rw [if_neg e2]
      by_cases e3 : ((b % 64 : Nat) : Int) - ((a % 64 : Nat) : Int) > 0
      · rw [if_pos e3]; exact ⟨1, rfl, by omega⟩
      · rw [if_neg e3]; exact ⟨-1, rfl, by omega⟩

/-- C30: the half-range hypothesis is needed — at distance exactly 32 the answer depends on where the
counters are, so it is wrong for one of any two such pairs. -/
theorem C30_window_is_tight : versionCmp ((0 % 64 : Nat) : Int) ((32 % 64 : Nat) : Int) = some 1 ∧
    versionCmp ((32 % 64 : Nat) : Int) ((64 % 64 : Nat) : Int) = some (-1) := by decide

/-- C30: the version given to an object when it is marked in cycle `v` (an even number) stands for a
counter strictly above `v` and at most 23 above it, it is odd (gray), and after the final increment the
object is at most 24 cycles ahead: inside the comparison window. -/
theorem C30_next_version_window (gen v : Nat) (hg : gen < 4) (hv : v % 2 = 0) :
    ∃ gen' inc, nextVersion gen v = some (gen', (v + inc - 1) % 64) ∧ gen' < 4 ∧ gen ≤ gen' ∧
      inc ∈ [2, 4, 8, 24] ∧ v % inc = 0 ∧ (v + inc - 1) % 2 = 1 := by
  unfold nextVersion
  rw [if_pos hg]
  have key : ∀ g, g < 4 → ∃ inc, nextVerLoop v g = v + inc - 1 ∧ inc ∈ [2, 4, 8, 24] ∧ v % inc = 0 := by
    intro g hg
    have h0 : nextVerLoop v 0 = v + 2 - 1 := by simp [nextVerLoop, GEN_INCREMENTS, hv]
    have h1 : ∃ inc, nextVerLoop v 1 = v + inc - 1 ∧ inc ∈ [2, 4, 8, 24] ∧ v % inc = 0 := by
      by_cases e : v % 4 = 0
      · exact ⟨4, by simp [nextVerLoop, GEN_INCREMENTS, e], by simp, e⟩
      · exact ⟨2, by rw [nextVerLoop, h0]; simp [GEN_INCREMENTS, e], by simp, hv⟩
    have h2 : ∃ inc, nextVerLoop v 2 = v + inc - 1 ∧ inc ∈ [2, 4, 8, 24] ∧ v % inc = 0 := by
      by_cases e : v % 8 = 0
      · exact ⟨8, by simp [nextVerLoop, GEN_INCREMENTS, e], by simp, e⟩
      · obtain ⟨inc, a, b⟩ := h1
        exact ⟨inc, by rw [nextVerLoop, a]; simp [GEN_INCREMENTS, e], b⟩
    match g, hg with
    | 0, _ => exact ⟨2, h0, by simp, hv⟩
    | 1, _ => exact h1
    | 2, _ => exact h2
    | 3, _ =>
      by_cases e : v % 24 = 0
      · exact ⟨24, by simp [nextVerLoop, GEN_INCREMENTS, e], by simp, e⟩
      · obtain ⟨inc, a, b⟩ := h2
        exact ⟨inc, by rw [nextVerLoop, a]; simp [GEN_INCREMENTS, e], b⟩
  obtain ⟨inc, a, b, c⟩ := key gen hg
  refine ⟨_, inc, by rw [a], ?_, ?_, b, c, ?_⟩
  · split <;> omega
  · split <;> omega
  · simp only [List.mem_cons, List.not_mem_nil, or_false] at b
    omega

/-- non-vacuity: counters 62 and 70 straddle the wrap-around -/
example : versionCmp ((62 % 64 : Nat) : Int) ((70 % 64 : Nat) : Int) = some (-1) ∧
    nextVersion 3 48 = some (3, 7) := by decide

/-! ## C33 -/

attribute [local irreducible] CHUNK

/-- `Holds q l`: the queue holds exactly the list `l`, oldest first -/
structure Holds {α : Type} (q : GrayQ α) (l : List α) : Prop where
  ne : q.chunks ≠ []
  len : ∀ c ∈ q.chunks, c.length = CHUNK
  start_le : q.start ≤ CHUNK
  stop_le : q.stop ≤ CHUNK
  le : q.start ≤ (q.chunks.length - 1) * CHUNK + q.stop
  tail_used : 1 < q.chunks.length → 0 < q.stop
  eq : (q.chunks.flatten.take ((q.chunks.length - 1) * CHUNK + q.stop)).drop q.start = l.map some

theorem CHUNK_pos : 0 < CHUNK := by unfold CHUNK; decide

theorem flatten_length {α : Type} (cs : List (List α)) (n : Nat) (h : ∀ c ∈ cs, c.length = n) :
    cs.flatten.length = cs.length * n := by
  induction cs with
  | nil => simp
  | cons c r ih =>
    rw [List.flatten_cons, List.length_append, ih (fun c hc => h c (List.mem_cons_of_mem _ hc)),
      h c List.mem_cons_self, List.length_cons, Nat.add_mul]
    omega

theorem holds_init (α : Type) : Holds (GrayQ.init α) ([] : List α) := by
  refine ⟨by simp [GrayQ.init], by simp [GrayQ.init, newChunk], by simp [GrayQ.init], by simp [GrayQ.init],
    by simp [GrayQ.init], by simp [GrayQ.init], by simp [GrayQ.init]⟩

theorem write_last {α : Type} {pre : List (List (Option α))} {b : List (Option α)} {start stop : Nat} {l : List α} (p : α)
    (hlen : ∀ c ∈ pre ++ [b], c.length = CHUNK) (hs : start ≤ CHUNK) (hstop : stop < CHUNK)
    (hle : start ≤ pre.length * CHUNK + stop)
    (heq : ((pre ++ [b]).flatten.take (pre.length * CHUNK + stop)).drop start = l.map some) :
    Holds (⟨pre ++ [b.set stop (some p)], start, stop + 1⟩ : GrayQ α) (l ++ [p]) := by
  have hb : b.length = CHUNK := hlen b (by simp)
  have hpl : pre.flatten.length = pre.length * CHUNK :=
    flatten_length pre CHUNK (fun c hc => hlen c (by simp [hc]))
  refine ⟨by simp, ?_, hs, by simp only; omega, by simp; omega, by intro _; simp, ?_⟩
  · intro c hc
    rcases List.mem_append.mp hc with h | h
    · exact hlen c (by simp [h])
    · simp only [List.mem_singleton] at h
      subst h; simpa using hb
  · simp only [List.length_append, List.length_singleton, Nat.add_sub_cancel, List.map_append, List.map_cons, List.map_nil]
    simp only [List.flatten_append, List.flatten_cons, List.flatten_nil, List.append_nil] at heq ⊢
    have e1 : ∀ (c : List (Option α)) (k : Nat), (pre.flatten ++ c).take (pre.length * CHUNK + k) = pre.flatten ++ c.take k := by
      intro c k
      rw [List.take_append, hpl, List.take_of_length_le (by omega)]
      congr 1
      rw [Nat.add_sub_cancel_left]
    rw [e1] at heq
    rw [show pre.length * CHUNK + (stop + 1) = pre.length * CHUNK + (stop + 1) from rfl, e1,
      List.take_set, List.take_add_one]
    have hb2 : b[stop]? = some b[stop] := List.getElem?_eq_getElem (by omega)
    rw [hb2]
    have hset : (b.take stop ++ (some b[stop]).toList).set stop (some p) = b.take stop ++ [some p] := by
      rw [Option.toList_some, List.set_append_right _ _ (by simp; omega)]
      simp [show min stop b.length = stop by omega]
    rw [hset, ← List.append_assoc, List.drop_append_of_le_length, heq]
    simp only [List.length_append, List.length_take, hpl]; omega

theorem enqueue_spec {α : Type} {q : GrayQ α} {l : List α} (h : Holds q l) (p : α) :
    ∃ q', q.enqueue p = some q' ∧ Holds q' (l ++ [p]) := by
  obtain ⟨cs, start, stop⟩ := q
  obtain ⟨ne, len, start_le, stop_le, le, tail_used, eq⟩ := h
  simp only at *
  have hnil : cs.isEmpty = false := by cases cs <;> simp_all
  by_cases hfull : stop + 1 > CHUNK
  · have hs : stop = CHUNK := by omega
    subst hs
    refine ⟨⟨cs ++ [(newChunk α).set 0 (some p)], start, 0 + 1⟩, ?_, ?_⟩
    · have h0 : 0 < (newChunk α).length := by rw [newChunk, List.length_replicate]; exact CHUNK_pos
      simp [GrayQ.enqueue, hnil, hfull, h0]
    · have hc : 0 < cs.length := List.length_pos_iff.mpr ne
      apply write_last p ?_ start_le CHUNK_pos ?_ ?_
      · intro c hc
        rcases List.mem_append.mp hc with h | h
        · exact len c h
        · simp only [List.mem_singleton] at h; subst h; simp [newChunk]
      · have : (cs.length - 1) * CHUNK + CHUNK = cs.length * CHUNK := by
          obtain ⟨k, hk⟩ : ∃ k, cs.length = k + 1 := ⟨cs.length - 1, by omega⟩
          rw [hk, Nat.add_sub_cancel, Nat.add_mul, Nat.one_mul]
        omega
      · have h1 : (cs.length - 1) * CHUNK + CHUNK = cs.length * CHUNK := by
          obtain ⟨k, hk⟩ : ∃ k, cs.length = k + 1 := ⟨cs.length - 1, by omega⟩
          rw [hk, Nat.add_sub_cancel, Nat.add_mul, Nat.one_mul]
        rw [h1] at eq
        rw [List.flatten_append, Nat.add_zero, List.take_append_of_le_length (by rw [flatten_length cs CHUNK len]; omega)]
        exact eq
  · obtain ⟨pre, b, rfl⟩ : ∃ pre b, cs = pre ++ [b] :=
      ⟨cs.dropLast, cs.getLast ne, (List.dropLast_concat_getLast ne).symm⟩
    have hb : b.length = CHUNK := len b (by simp)
    refine ⟨⟨pre ++ [b.set stop (some p)], start, stop + 1⟩, ?_, ?_⟩
    · simp [GrayQ.enqueue, hfull, hb, show stop < CHUNK by omega]
    · simp only [List.length_append, List.length_singleton, Nat.add_sub_cancel] at eq le
      exact write_last p len start_le (by omega) le eq

theorem dequeue_nonempty {α : Type} {q : GrayQ α} {x : α} {l : List α} (h : Holds q (x :: l)) :
    ∃ q', q.dequeue = some (some x, q') ∧ Holds q' l := by
  obtain ⟨cs, start, stop⟩ := q
  obtain ⟨ne, len, start_le, stop_le, le, tail_used, eq⟩ := h
  simp only at *
  -- reduce to start < CHUNK
  have core : ∀ (cs : List (List (Option α))) (start : Nat), cs ≠ [] → (∀ c ∈ cs, c.length = CHUNK) → start < CHUNK →
      (1 < cs.length → 0 < stop) →
      ((cs.flatten.take ((cs.length - 1) * CHUNK + stop)).drop start = (x :: l).map some) →
      ∃ b rest, cs = b :: rest ∧ ¬ (rest.isEmpty = true ∧ start ≥ stop) ∧ b[start]? = some (some x) ∧
        Holds (⟨cs, start + 1, stop⟩ : GrayQ α) l := by
    intro cs start ne len hst tail_used eq
    match cs, ne with
    | b :: rest, _ =>
      have hb : b.length = CHUNK := len b (by simp)
      have hlt : start < (rest.length) * CHUNK + stop := by
        have := congrArg List.length eq
        simp only [List.length_cons, Nat.add_sub_cancel, List.length_drop, List.length_take, List.length_map] at this
        omega
      simp only [List.length_cons, Nat.add_sub_cancel] at eq
      refine ⟨b, rest, rfl, ?_, ?_, ?_⟩
      · rintro ⟨h1, h2⟩
        have : rest = [] := by simpa using h1
        subst this
        simp at hlt; omega
      · have h0 := congrArg (fun l => l[0]?) eq
        simp only [List.getElem?_drop, Nat.add_zero, List.getElem?_take, hlt, if_true, List.map_cons,
          List.getElem?_cons_zero, List.flatten_cons] at h0
        rwa [List.getElem?_append_left (by omega)] at h0
      · refine ⟨by simp, len, by simp only; omega, stop_le, by simp; omega, tail_used, ?_⟩
        simp only [List.length_cons, Nat.add_sub_cancel]
        rw [← List.drop_drop, eq]
        simp
  by_cases hs : start ≥ CHUNK
  · have hs' : start = CHUNK := by omega
    subst hs'
    match cs, ne with
    | b :: rest, _ =>
      have hb : b.length = CHUNK := len b (by simp)
      simp only [List.length_cons, Nat.add_sub_cancel, List.flatten_cons] at eq
      have hrest : rest ≠ [] := by
        rintro rfl
        have := congrArg List.length eq
        simp only [List.length_drop, List.length_take, List.length_map, List.length_cons, List.length_nil] at this
        omega
      obtain ⟨k, hk⟩ : ∃ k, rest.length = k + 1 := ⟨rest.length - 1, by have := List.length_pos_iff.mpr hrest; omega⟩
      have eq' : ((rest.flatten.take ((rest.length - 1) * CHUNK + stop)).drop 0) = (x :: l).map some := by
        rw [← eq, hk, Nat.add_sub_cancel]
        have e1 : (b ++ rest.flatten).take ((k + 1) * CHUNK + stop) = b ++ rest.flatten.take (k * CHUNK + stop) := by
          rw [List.take_append, List.take_of_length_le (by rw [hb, Nat.add_mul]; omega)]
          congr 2
          rw [hb, Nat.add_mul]; omega
        rw [e1, ← hb, List.drop_left, List.drop_zero]
      obtain ⟨b', rest', e1, e2, e3, e4⟩ := core rest 0 hrest (fun c hc => len c (List.mem_cons_of_mem _ hc)) CHUNK_pos
        (fun _ => tail_used (by simp only [List.length_cons]; omega)) eq'
      subst e1
      refine ⟨_, ?_, e4⟩
      simp only [GrayQ.dequeue, ge_iff_le, Nat.le_refl, if_true]
      rw [if_neg e2, e3]
  · obtain ⟨b', rest', e1, e2, e3, e4⟩ := core cs start ne len (by omega) tail_used eq
    subst e1
    refine ⟨_, ?_, e4⟩
    simp only [GrayQ.dequeue, hs, if_false]
    rw [if_neg e2, e3]

theorem dequeue_empty {α : Type} {q : GrayQ α} (h : Holds q ([] : List α)) :
    ∃ q', q.dequeue = some (none, q') := by
  obtain ⟨cs, start, stop⟩ := q
  obtain ⟨ne, len, start_le, stop_le, le, tail_used, eq⟩ := h
  simp only at *
  have hge : (cs.length - 1) * CHUNK + stop ≤ start := by
    have := congrArg List.length eq
    simp only [List.length_drop, List.length_take, List.map_nil, List.length_nil] at this
    rw [flatten_length cs CHUNK len] at this
    have hc : 0 < cs.length := List.length_pos_iff.mpr ne
    obtain ⟨k, hk⟩ : ∃ k, cs.length = k + 1 := ⟨cs.length - 1, by omega⟩
    rw [hk, Nat.add_sub_cancel] at this ⊢
    rw [Nat.add_mul] at this
    omega
  match cs, ne with
  | b :: rest, _ =>
    have hrest : rest = [] := by
      cases rest with
      | nil => rfl
      | cons c r =>
        have := tail_used (by simp)
        simp only [List.length_cons, Nat.add_sub_cancel] at hge
        rw [Nat.add_mul] at hge
        omega
    subst hrest
    simp only [List.length_cons, List.length_nil, Nat.zero_add, Nat.sub_self, Nat.zero_mul] at hge
    by_cases hs : start ≥ CHUNK
    · simp [GrayQ.dequeue, hs]
    · simp [GrayQ.dequeue, hs, hge]

/-- an operation on the gray queue -/
inductive GOp (α : Type) where
  | enq (p : α)
  | deq

/-- run a history on the code's queue; every dequeue's answer is recorded; a dequeue that answers NULL
ends the marking phase, so nothing may follow it -/
def runGray {α : Type} (q : GrayQ α) : List (GOp α) → Option (List (Option α))
  | [] => some []
  | .enq p :: r => do runGray (← q.enqueue p) r
  | .deq :: r => do
    match ← q.dequeue with
    | (none, _) => some [none]
    | (some x, q) => some (some x :: (← runGray q r))

/-- specification: a list, oldest first; NULL when empty -/
def fifoGray {α : Type} (l : List α) : List (GOp α) → List (Option α)
  | [] => []
  | .enq p :: r => fifoGray (l ++ [p]) r
  | .deq :: r =>
    match l with
    | [] => [none]
    | x :: l => some x :: fifoGray l r

/-- C33. For every history of enqueues and dequeues, with any number of blocks chained and released on
the way, the collector's gray queue gives exactly the answers of a first-in first-out list: nothing is
lost, duplicated or reordered, NULL is returned only when it is empty, and no word outside the written
part of a block is ever read. -/
theorem C33_gray_queue_fifo {α : Type} (ops : List (GOp α)) :
    runGray (GrayQ.init α) ops = some (fifoGray [] ops) := by
  have main : ∀ (ops : List (GOp α)) (q : GrayQ α) (l : List α), Holds q l → runGray q ops = some (fifoGray l ops) := by
    intro ops
    induction ops with
    | nil => intros; rfl
    | cons op r ih =>
      intro q l h
      cases op with
      | enq p =>
        obtain ⟨q', e, h'⟩ := enqueue_spec h p
        simp [runGray, fifoGray, e, ih q' _ h']
      | deq =>
        cases l with
        | nil =>
          obtain ⟨q', e⟩ := dequeue_empty h
          simp [runGray, fifoGray, e]
        | cons x l =>
          obtain ⟨q', e, h'⟩ := dequeue_nonempty h
          simp [runGray, fifoGray, e, ih q' _ h']
  exact main ops _ _ (holds_init α)

/-- non-vacuity -/
example : runGray (GrayQ.init Nat) [.enq 1, .enq 2, .deq, .enq 3, .deq, .deq, .deq] =
    some [some 1, some 2, some 3, none] := C33_gray_queue_fifo _

end Cora.GC
