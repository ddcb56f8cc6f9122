import Verif.Model.Vector
import Verif.Spec.Seq
import Verif.Lemmas.Str
/-
Property theorems C16 (vectors), C17 (vector append), C46 (queues).
-/
namespace Cora
open Spec

/-! ## C16 -/

theorem makeVector_some {junk : Nat → Obj} {n c : Int} {v : Vec} (h : makeVector junk n c = some v) :
    0 ≤ n ∧ n ≤ c ∧ v.size = n.toNat ∧ v.data.length = c.toNat ∧ ∀ i, i < n.toNat → v.data[i]? = some Undef := by
  unfold makeVector at h
  split at h
  · rename_i hc
    obtain rfl := Option.some.inj h
    refine ⟨hc.2.2.1, hc.1, rfl, ?_, ?_⟩
    · simp only [List.length_append, List.length_replicate, List.length_map, List.length_range]; omega
    · intro i hi
      rw [List.getElem?_append_left (by simpa using hi)]
      simp [List.getElem?_replicate, hi]
  · simp at h

theorem vectorSet_some {v : Vec} {i : Int} {x : Obj} (hl : v.size ≤ v.data.length) (h0 : 0 ≤ i) (h1 : i < v.size) :
    vectorSet v i x = some { v with data := v.data.set i.toNat x } := by
  rw [vectorSet, if_pos ⟨h0, h1⟩, if_pos (by omega)]

theorem runStores_spec (hist : List (Int × Obj)) {v : Vec} (hl : v.size ≤ v.data.length)
    (hr : ∀ e ∈ hist, 0 ≤ e.1 ∧ e.1 < v.size) (hn : v.size < 2 ^ 31) :
    ∃ w, runStores v hist = some w ∧ w.size = v.size ∧ w.data.length = v.data.length ∧
      ∀ i : Nat, i < v.size → ∀ x, v.data[i]? = some x → w.data[i]? = some (lastStore x hist i) := by
  induction hist generalizing v with
  | nil => exact ⟨v, rfl, rfl, rfl, fun i _ x h => h⟩
  | cons e r ih =>
    obtain ⟨j, y⟩ := e
    obtain ⟨h0, h1⟩ := hr (j, y) List.mem_cons_self
    simp only at h0 h1
    have e1 : builtinVectorSet v j y = some { v with data := v.data.set j.toNat y } := by
      rw [builtinVectorSet, toInt32_id (by omega) (by omega), vectorSet_some hl h0 h1]
    obtain ⟨w, e2, s2, l2, g2⟩ := ih (v := { v with data := v.data.set j.toNat y }) (by simpa using hl)
      (fun e he => hr e (List.mem_cons_of_mem _ he)) hn
    refine ⟨w, by simp [runStores, e1, e2], s2, by simpa using l2, ?_⟩
    intro i hi x hx
    simp only [lastStore]
    apply g2 i hi
    by_cases e : (i : Int) = j
    · have : j.toNat = i := by omega
      simp only [e, if_true]
      rw [this]
      simp [List.getElem?_set, show i < v.data.length by omega]
    · have : j.toNat ≠ i := by omega
      simp only [e, if_false]
      rw [List.getElem?_set_ne this, hx]

/-- C16. Let `v` be what `(vector n)` returned. After any sequence of stores at indices inside `0..n-1`,
none of which trapped, the length is still `n`, reading any index inside gives the last value stored
there (or the undefined marker), and reading or storing at any `int` index outside traps. -/
theorem C16_vector_is_array (junk : Nat → Obj) (n : Int) (v : Vec) (hv : builtinVector junk n = some v)
    (hn : 0 ≤ n ∧ n < 2 ^ 31) (hist : List (Int × Obj)) (hr : ∀ e ∈ hist, 0 ≤ e.1 ∧ e.1 < n) :
    ∃ w, runStores v hist = some w ∧ (vectorLength w : Int) = n ∧
      (∀ i : Int, 0 ≤ i → i < n → builtinVectorRef w i = some (lastStore Undef hist i)) ∧
      (∀ (i : Int) (x : Obj), -(2:Int) ^ 31 ≤ i → i < 2 ^ 31 → (i < 0 ∨ n ≤ i) →
        builtinVectorRef w i = none ∧ builtinVectorSet w i x = none) := by
  rw [builtinVector, toInt32_id (by omega) (by omega)] at hv
  obtain ⟨_, _, hs, hl, hu⟩ := makeVector_some hv
  have hl' : v.size ≤ v.data.length := by omega
  obtain ⟨w, e1, s1, l1, g1⟩ := runStores_spec hist hl' (fun e he => by have := hr e he; omega) (by omega)
  refine ⟨w, e1, by simp only [vectorLength]; omega, ?_, ?_⟩
  · intro i h0 h1
    rw [builtinVectorRef, toInt32_id (by omega) (by omega), vectorRef, if_pos ⟨h0, by omega⟩]
    have := g1 i.toNat (by omega) Undef (hu _ (by omega))
    rw [this]
    congr 2
    omega
  · intro i x h0 h1 h2
    rw [builtinVectorRef, builtinVectorSet, toInt32_id h0 (by omega), vectorRef, vectorSet]
    have : ¬ (0 ≤ i ∧ i < (w.size : Int)) := by omega
    simp [this]

/-- C16, where the code departs from the claim: the index is converted to a 32-bit `int`, so an index
that is a multiple of 2^32 away from a valid one does not trap but reads that element. -/
theorem C16_index_wraps (v : Vec) (i k : Int) : builtinVectorRef v (i + k * 2 ^ 32) = builtinVectorRef v i := by
  have : toInt32 (i + k * 2 ^ 32) = toInt32 i := by
    unfold toInt32
    rw [show k * 2 ^ 32 = ((2 ^ 32 : Nat) : Int) * k by rw [Int.mul_comm]; rfl]
    exact Int.add_mul_bmod_self_left _ _ _
  rw [builtinVectorRef, builtinVectorRef, this]

/-- C16: creating a vector of negative length is not refused by the size check (`size <= cap` holds
since both are the same negative number); the header stores then fall outside the allocation, so the
model has no result. -/
theorem C16_negative_length_undefined (junk : Nat → Obj) (n : Int) (h : toInt32 n < 0) :
    builtinVector junk n = none := by
  rw [builtinVector, makeVector, if_neg (by omega)]

/-- non-vacuity: a vector of length 3, four stores, one position overwritten -/
example : ∃ v w, builtinVector (fun _ => 0) 3 = some v ∧
    runStores v [(0, 5#64), (2, 6#64), (0, 7#64)] = some w ∧
    builtinVectorRef w 0 = some 7#64 ∧ builtinVectorRef w 1 = some Undef ∧ builtinVectorRef w 3 = none ∧
    builtinVectorRef w (-1) = none := ⟨_, _, rfl, rfl, by decide, by decide, by decide, by decide⟩

/-! ## C17 -/

/-- what a vector holds -/
def Vec.contents (v : Vec) : List Obj := v.data.take v.size

/-- vector invariant: the initialised part fits the allocation -/
def Vec.Ok (v : Vec) : Prop := v.size ≤ v.data.length

theorem vectorAppend_spec (junk : Nat → Obj) {v : Vec} (hok : v.Ok) (hcap : 0 < v.cap)
    (hbig : 32 + 8 * (vecNewCap v.cap : Int) < 64 * 1024 * 1024) (x : Obj) :
    ∃ w, vectorAppend junk v x = some w ∧ w.Ok ∧ w.contents = v.contents ++ [x] ∧
      w.cap = (if v.size < v.cap then v.cap else vecNewCap v.cap) := by
  have finish : ∀ u : Vec, u.size < u.data.length →
      (⟨u.size + 1, u.data.set u.size x⟩ : Vec).contents = u.contents ++ [x] := by
    intro u hu
    apply List.ext_getElem?
    intro i
    simp only [Vec.contents, List.getElem?_take, List.getElem?_append, List.length_take, List.getElem?_set]
    rw [Nat.min_eq_left (by omega)]
    by_cases h1 : i < u.size
    · have h2 : i < u.size + 1 := by omega
      have h3 : ¬ u.size = i := by omega
      simp [h1, h2, h3]
    · by_cases h2 : i = u.size
      · subst h2; simp [hu]
      · have h3 : ¬ i < u.size + 1 := by omega
        have h4 : i - u.size ≠ 0 := by omega
        obtain ⟨k, hk⟩ := Nat.exists_eq_succ_of_ne_zero h4
        simp [h1, h3, hk]
  unfold Vec.Ok Vec.cap at *
  by_cases hfull : v.size < v.data.length
  · refine ⟨⟨v.size + 1, v.data.set v.size x⟩, ?_, ?_, finish v hfull, by simp [hfull]⟩
    · have hn : ¬ (v.data.length ≤ v.size) := by omega
      simp [vectorAppend, Vec.cap, hn, hfull]
    · simp; omega
  · have hge : v.size ≥ v.data.length := by omega
    have hnc : v.data.length < vecNewCap v.data.length := by unfold vecNewCap; split <;> omega
    have hmk : makeVector junk v.size (vecNewCap v.data.length) = some ⟨v.size, List.replicate v.size Undef ++
        (List.range (vecNewCap v.data.length - v.size)).map junk⟩ := by
      unfold makeVector
      have : (v.size : Int) ≤ (vecNewCap v.data.length : Int) ∧ (0:Int) ≤ (vecNewCap v.data.length : Int) ∧
          (0:Int) ≤ (v.size : Int) ∧ 32 + 8 * (vecNewCap v.data.length : Int) < 64 * 1024 * 1024 := by omega
      rw [if_pos this]; simp
    generalize ht : List.replicate v.size Undef ++ (List.range (vecNewCap v.data.length - v.size)).map junk = t at hmk
    have tlen : t.length = vecNewCap v.data.length := by
      rw [← ht]; simp only [List.length_append, List.length_replicate, List.length_map, List.length_range]; omega
    let u : Vec := ⟨v.size, v.data.take v.size ++ t.drop v.size⟩
    have ulen : u.data.length = vecNewCap v.data.length := by
      simp only [u, List.length_append, List.length_take, List.length_drop, tlen]; omega
    have husz : u.size < u.data.length := by rw [ulen]; show v.size < _; omega
    refine ⟨⟨u.size + 1, u.data.set u.size x⟩, ?_, ?_, ?_, ?_⟩
    · have h1 : v.size ≤ vecNewCap v.data.length ∧ v.size ≤ v.data.length := by omega
      simp only [vectorAppend, Vec.cap, hge, hcap, if_true, hmk, tlen, h1, and_self, Option.bind_eq_bind,
        Option.bind_some]
      exact if_pos husz
    · simp only [List.length_set]; omega
    · rw [finish u husz]
      congr 1
      simp only [Vec.contents, u]
      rw [List.take_append_of_le_length (by simp; omega), List.take_take, Nat.min_self]
    · simp only [List.length_set, ulen]; rw [if_neg hfull]

/-- C17. Any sequence of appends, starting from a vector with room for at least one element, keeps
everything that was in it and adds exactly the appended values in order, never writing outside an
allocation — as long as the grown blocks stay below the 64 MB limit of the allocator, i.e. the final
length is below 4·2^20. -/
theorem C17_append_sequence (v : Vec) (hok : v.size ≤ v.cap) (hcap : 0 < v.cap) (hsmall : v.cap < 2 ^ 20)
    (xs : List ((Nat → Obj) × Obj)) (hlen : v.size + xs.length < 4 * 2 ^ 20) :
    ∃ w, runAppends v xs = some w ∧ vectorLength w = vectorLength v + xs.length ∧
      (∀ i < v.size, vectorRef w i = vectorRef v i) ∧
      (∀ k < xs.length, vectorRef w ((v.size + k : Nat) : Int) = (xs[k]?).map (·.2)) := by
  have main : ∀ (xs : List ((Nat → Obj) × Obj)) (v : Vec), v.Ok → 0 < v.cap → v.size + xs.length < 4 * 2 ^ 20 →
      (v.cap < 2 ^ 20 ∨ v.cap ≤ 2 * v.size) →
      ∃ w, runAppends v xs = some w ∧ w.Ok ∧ w.contents = v.contents ++ xs.map (·.2) := by
    intro xs
    induction xs with
    | nil => intro v h1 _ _ _; exact ⟨v, rfl, h1, by simp⟩
    | cons e r ih =>
      obtain ⟨j, x⟩ := e
      intro v h1 h2 h3 h4
      simp only [List.length_cons] at h3
      have hwc : v.size < v.cap ∨ v.size = v.cap := by have : v.size ≤ v.data.length := h1; simp only [Vec.cap]; omega
      have hb : v.size < v.cap ∨ 32 + 8 * (vecNewCap v.cap : Int) < 64 * 1024 * 1024 := by
        rcases hwc with h | h
        · exact Or.inl h
        · refine Or.inr ?_
          unfold vecNewCap; split <;> omega
      -- when there is room the capacity bound of `vectorAppend_spec` is irrelevant
      have step : ∃ w, vectorAppend j v x = some w ∧ w.Ok ∧ w.contents = v.contents ++ [x] ∧
          w.cap = (if v.size < v.cap then v.cap else vecNewCap v.cap) := by
        rcases hb with h | h
        · have hroom : v.size < v.data.length := h
          have hn : ¬ (v.data.length ≤ v.size) := by omega
          refine ⟨⟨v.size + 1, v.data.set v.size x⟩, by simp [vectorAppend, Vec.cap, hn, hroom], ?_, ?_, ?_⟩
          · show v.size + 1 ≤ _; simp; omega
          · apply List.ext_getElem?
            intro i
            simp only [Vec.contents, List.getElem?_take, List.getElem?_append, List.length_take, List.getElem?_set]
            rw [Nat.min_eq_left (by omega)]
            by_cases h1 : i < v.size
            · have h2 : i < v.size + 1 := by omega
              have h3 : ¬ v.size = i := by omega
              simp [h1, h2, h3]
            · by_cases h2 : i = v.size
              · subst h2; simp [hroom]
              · have h3 : ¬ i < v.size + 1 := by omega
                have h4 : i - v.size ≠ 0 := by omega
                obtain ⟨k, hk⟩ := Nat.exists_eq_succ_of_ne_zero h4
                simp [h1, h3, hk]
          · rw [if_pos h]; simp [Vec.cap]
        · exact vectorAppend_spec j h1 h2 h x
      obtain ⟨w, e1, ok1, c1, cap1⟩ := step
      have hws : w.size = v.size + 1 := by
        have := congrArg List.length c1
        have a : w.size ≤ w.data.length := ok1
        have b : v.size ≤ v.data.length := h1
        simp only [Vec.contents, List.length_append, List.length_take, List.length_singleton] at this
        omega
      have hwcap : v.cap ≤ w.cap := by
        rw [cap1]; split
        · omega
        · unfold vecNewCap; split <;> omega
      obtain ⟨u, e2, ok2, c2⟩ := ih w ok1 (by omega) (by omega) (by
        rw [cap1]
        rcases hwc with h | h
        · rw [if_pos h]; rcases h4 with h4 | h4
          · exact Or.inl h4
          · exact Or.inr (by omega)
        · rw [if_neg (by omega)]
          refine Or.inr ?_
          unfold vecNewCap; split <;> omega)
      exact ⟨u, by simp [runAppends, e1, e2], ok2, by rw [c2, c1]; simp⟩
  obtain ⟨w, e1, ok, c⟩ := main xs v hok hcap hlen (Or.inl hsmall)
  have hsz : w.size = v.size + xs.length := by
    have := congrArg List.length c
    have a : w.size ≤ w.data.length := ok
    have b : v.size ≤ v.data.length := hok
    simp only [Vec.contents, List.length_append, List.length_take, List.length_map] at this
    omega
  have hget : ∀ (u : Vec) (i : Nat), u.Ok → i < u.size → vectorRef u i = u.contents[i]? := by
    intro u i hu hi
    rw [vectorRef, if_pos (by omega), Vec.contents, List.getElem?_take, if_pos hi]
    simp
  have hb : v.size ≤ v.data.length := hok
  refine ⟨w, e1, hsz, ?_, ?_⟩
  · intro i hi
    rw [hget w i ok (by omega), hget v i hok hi, c, List.getElem?_append_left (by simp [Vec.contents]; omega)]
  · intro k hk
    rw [hget w _ ok (by omega), c]
    have : v.contents.length = v.size := by simp [Vec.contents]; omega
    rw [List.getElem?_append_right (by omega), this, Nat.add_sub_cancel_left, List.getElem?_map]

/-- C17, where the code departs from the claim: appending to an empty vector of capacity zero traps. -/
theorem C17_append_to_capacity_zero_traps (junk : Nat → Obj) (x : Obj) :
    builtinVector junk 0 = some ⟨0, []⟩ ∧ vectorAppend junk ⟨0, []⟩ x = none := by
  exact ⟨rfl, rfl⟩

/-- non-vacuity: appending three values to a full vector of length one -/
example : ∃ v w, builtinVector (fun _ => 9#64) 1 = some v ∧ v.size ≤ v.cap ∧ 0 < v.cap ∧
    runAppends v [(fun _ => 1#64, 5#64), (fun _ => 2#64, 6#64), (fun _ => 3#64, 7#64)] = some w ∧
    w.size = 4 ∧ vectorRef w 3 = some 7#64 := ⟨_, _, rfl, by decide, by decide, rfl, by decide, by decide⟩

/-! ## C46 -/

/-- the queue's contents, oldest first -/
def Queue.toList {α : Type} (q : Queue α) : List α := q.outS ++ q.inS.reverse

theorem dequeue_spec {α : Type} (q : Queue α) (hs : q.size = q.toList.length) :
    match q.toList with
    | [] => q.dequeue = none
    | x :: r => ∃ q', q.dequeue = some (x, q') ∧ q'.toList = r ∧ q'.size = r.length := by
  obtain ⟨i, o, s⟩ := q
  simp only [Queue.toList] at hs ⊢
  subst hs
  cases o with
  | cons x r =>
    simp only [List.cons_append, Queue.dequeue]
    refine ⟨⟨i, r, (r ++ i.reverse).length⟩, ?_, rfl, rfl⟩
    have : ((x :: (r ++ i.reverse)).length : Int) > 0 := by simp; omega
    simp only [this, if_true, List.isEmpty_cons, Bool.false_eq_true, if_false]
    congr 3
    simp only [List.length_cons]; omega
  | nil =>
    simp only [List.nil_append]
    cases hr : i.reverse with
    | nil =>
      simp [Queue.dequeue, hr]
    | cons x r =>
      simp only [Queue.dequeue]
      refine ⟨⟨[], r, r.length⟩, ?_, by simp [Queue.toList], rfl⟩
      have : ((x :: r).length : Int) > 0 := by simp only [List.length_cons]; omega
      simp only [this, if_true, List.isEmpty_nil, hr]
      congr 3
      simp

/-- C46. Every history of enqueues and dequeues on a new queue behaves as the abstract first-in
first-out queue: the same elements come out in the same order, a dequeue of an empty queue is the only
thing that goes wrong, and afterwards `queue-len` is the number of elements left and `queue-empty?` says
whether there are none. -/
theorem C46_queue_is_fifo {α : Type} (ops : List (QOp α)) :
    match fifo ([] : List α) ops with
    | none => runQ (Queue.make : Queue α) ops = none
    | some (outs, left) => ∃ q, runQ Queue.make ops = some (outs, q) ∧
        q.len = left.length ∧ q.isEmpty = left.isEmpty := by
  have main : ∀ (ops : List (QOp α)) (q : Queue α), q.size = q.toList.length →
      match fifo q.toList ops with
      | none => runQ q ops = none
      | some (outs, left) => ∃ q', runQ q ops = some (outs, q') ∧ q'.size = left.length ∧ q'.toList = left := by
    intro ops
    induction ops with
    | nil => intro q hs; simp only [fifo, runQ]; exact ⟨q, rfl, hs, rfl⟩
    | cons op r ih =>
      intro q hs
      cases op with
      | enq x =>
        have h1 : (q.enqueue x).toList = q.toList ++ [x] := by simp [Queue.enqueue, Queue.toList]
        have := ih (q.enqueue x) (by rw [h1]; simp [Queue.enqueue, hs])
        rw [h1] at this
        simpa only [fifo, runQ] using this
      | deq =>
        have hd := dequeue_spec q hs
        cases hq : q.toList with
        | nil =>
          rw [hq] at hd
          simp only at hd
          simp [fifo, runQ, hd]
        | cons x rest =>
          rw [hq] at hd
          obtain ⟨q', e1, t1, s1⟩ := hd
          have := ih q' (by rw [t1]; exact s1)
          rw [t1] at this
          simp only [fifo, runQ, e1, Option.bind_eq_bind, Option.bind_some]
          cases hf : fifo rest r with
          | none => rw [hf] at this; simp only at this; simp [this]
          | some p =>
            obtain ⟨outs, left⟩ := p
            rw [hf] at this
            obtain ⟨q2, e2, s2, t2⟩ := this
            simp only [Option.map_some]
            exact ⟨q2, by simp [e2], s2, t2⟩
  have := main ops Queue.make rfl
  simp only [Queue.make, Queue.toList, List.reverse_nil, List.append_nil] at this
  cases hf : fifo ([] : List α) ops with
  | none => rw [hf] at this; exact this
  | some p =>
    obtain ⟨outs, left⟩ := p
    rw [hf] at this
    obtain ⟨q, e, s, t⟩ := this
    refine ⟨q, e, s, ?_⟩
    rw [← t]
    simp only [Queue.isEmpty, Queue.toList]
    cases q.inS <;> cases q.outS <;> simp

/-- non-vacuity: interleaved operations -/
example : fifo ([] : List Nat) [.enq 1, .enq 2, .deq, .enq 3, .deq] = some ([1, 2], [3]) ∧
    (runQ (Queue.make : Queue Nat) [.enq 1, .enq 2, .deq, .enq 3, .deq]).map (·.1) = some [1, 2] := by decide

end Cora
