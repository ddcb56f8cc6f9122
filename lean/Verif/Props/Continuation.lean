import Verif.Model.Continuation
/-
C109: what `throw` captures is what resuming it puts back, whatever happens to the rest of the memory in between.
-/
open Spec.Capture
namespace Cora.Continuation

/-! ## Objects -/

theorem low_pack (a b : BitVec 32) : low (pack a b) = a := by
  change BitVec.extractLsb' 0 32 (b ++ a : BitVec (32 + 32)) = a
  apply BitVec.eq_of_getElem_eq; intro i hi
  rw [BitVec.getElem_extractLsb', BitVec.getLsbD_append]
  simp [hi]

theorem high_pack (a b : BitVec 32) : high (pack a b) = b := by
  change BitVec.extractLsb' 32 32 (b ++ a : BitVec (32 + 32)) = b
  apply BitVec.eq_of_getElem_eq; intro i hi
  rw [BitVec.getElem_extractLsb', BitVec.getLsbD_append]
  simp [hi]

theorem store_ok {o : Obj} {m : Mem} {off : Nat} {v : Word} (h : off < o.words) : store o m off v = .ok (m.put (o.base + off) v) := by
  simp [store, h]

theorem store_inv {o : Obj} {m m' : Mem} {off : Nat} {v : Word} (h : store o m off v = .ok m') : off < o.words := by
  unfold store at h; split at h
  · assumption
  · cases h

/-- the `i`-th frame of an object is `f` -/
structure Holds (o : Obj) (m : Mem) (i : Nat) (f : Frame) : Prop where
  fn : m (o.base + (2 + 4 * i)) = f.fn
  label : low (m (o.base + (2 + 4 * i + 1))) = f.label
  bp : m (o.base + (2 + 4 * i + 2)) = f.bp
  sp : m (o.base + (2 + 4 * i + 3)) = f.sp

theorem putFrames_ok {o : Obj} {pad : Nat → BitVec 32} : ∀ (fs : List Frame) (m : Mem) (i : Nat), 2 + 4 * (i + fs.length) ≤ o.words →
    ∃ m', putFrames o pad m i fs = .ok m' ∧
      (∀ x, x < o.base + (2 + 4 * i) ∨ o.base + (2 + 4 * (i + fs.length)) ≤ x → m' x = m x) ∧
      ∀ j f, fs[j]? = some f → Holds o m' (i + j) f
  | [], m, i, _ => ⟨m, rfl, fun _ _ => rfl, by simp⟩
  | f :: fs, m, i, h => by
    simp only [List.length_cons] at h
    obtain ⟨m', e, keep, holds⟩ := putFrames_ok (o := o) (pad := pad) fs
      ((((m.put (o.base + (2 + 4 * i)) f.fn).put (o.base + (2 + 4 * i + 1)) (pack f.label (pad i))).put (o.base + (2 + 4 * i + 2)) f.bp).put
        (o.base + (2 + 4 * i + 3)) f.sp) (i + 1) (by omega)
    refine ⟨m', ?_, ?_, ?_⟩
    · simp only [putFrames]
      rw [store_ok (by omega)]; simp only [Outcome.bind]
      rw [store_ok (by omega)]; simp only
      rw [store_ok (by omega)]; simp only
      rw [store_ok (by omega)]; simp only
      exact e
    · intro x hx
      simp only [List.length_cons] at hx
      rw [keep x (by omega)]
      simp only [Mem.put]
      rw [if_neg (by omega), if_neg (by omega), if_neg (by omega), if_neg (by omega)]
    · intro j g hj
      cases j with
      | zero =>
        simp only [List.getElem?_cons_zero, Option.some.injEq] at hj
        subst hj
        constructor
        · rw [keep _ (by omega)]; simp [Mem.put]
        · rw [keep _ (by omega)]; simp [Mem.put, low_pack]
        · rw [keep _ (by omega)]; simp [Mem.put]
        · rw [keep _ (by omega)]; simp [Mem.put]
      | succ j =>
        have := holds j g (by simpa using hj)
        rwa [show i + 1 + j = i + (j + 1) by omega] at this

theorem putSegs_ok {o : Obj} {len : Nat} : ∀ (ss : List Word) (m : Mem) (i : Nat), 2 + 4 * len + i + ss.length ≤ o.words →
    ∃ m', putSegs o len m i ss = .ok m' ∧
      (∀ x, x < o.base + (2 + 4 * len + i) ∨ o.base + (2 + 4 * len + i + ss.length) ≤ x → m' x = m x) ∧
      ∀ j s, ss[j]? = some s → m' (o.base + (2 + 4 * len + (i + j))) = s
  | [], m, i, _ => ⟨m, rfl, fun _ _ => rfl, by simp⟩
  | s :: ss, m, i, h => by
    simp only [List.length_cons] at h
    obtain ⟨m', e, keep, holds⟩ := putSegs_ok (o := o) (len := len) ss (m.put (o.base + (2 + 4 * len + i)) s) (i + 1) (by omega)
    refine ⟨m', ?_, ?_, ?_⟩
    · simp only [putSegs]
      rw [store_ok (by omega)]; simp only [Outcome.bind]
      exact e
    · intro x hx
      simp only [List.length_cons] at hx
      rw [keep x (by omega)]
      simp only [Mem.put]
      rw [if_neg (by omega)]
    · intro j g hj
      cases j with
      | zero =>
        simp only [List.getElem?_cons_zero, Option.some.injEq] at hj
        subst hj
        rw [keep _ (by omega)]; simp [Mem.put]
      | succ j =>
        have := holds j g (by simpa using hj)
        rwa [show i + 1 + j = i + (j + 1) by omega] at this

theorem bind_ok {α β : Type} {r : Outcome α} {f : α → Outcome β} {b : β} (h : r.bind f = .ok b) : ∃ a, r = .ok a ∧ f a = .ok b := by
  cases r with
  | ok a => exact ⟨a, rfl, h⟩
  | abort => cases h
  | ub => cases h

theorem putFrames_inv {o : Obj} {pad : Nat → BitVec 32} : ∀ (fs : List Frame) (m : Mem) (i : Nat) (m' : Mem),
    putFrames o pad m i fs = .ok m' → fs = [] ∨ 2 + 4 * (i + fs.length) ≤ o.words
  | [], _, _, _, _ => .inl rfl
  | f :: fs, m, i, m', h => by
    simp only [putFrames] at h
    obtain ⟨m1, _, h⟩ := bind_ok h
    obtain ⟨m2, _, h⟩ := bind_ok h
    obtain ⟨m3, _, h⟩ := bind_ok h
    obtain ⟨m4, h4, h⟩ := bind_ok h
    have := store_inv h4
    rcases putFrames_inv fs m4 (i + 1) m' h with e | e
    · subst e; simp only [List.length_cons, List.length_nil]; omega
    · simp only [List.length_cons]; omega

theorem putSegs_inv {o : Obj} {len : Nat} : ∀ (ss : List Word) (m : Mem) (i : Nat) (m' : Mem),
    putSegs o len m i ss = .ok m' → ss = [] ∨ 2 + 4 * len + i + ss.length ≤ o.words
  | [], _, _, _, _ => .inl rfl
  | s :: ss, m, i, m', h => by
    simp only [putSegs] at h
    obtain ⟨m1, h1, h⟩ := bind_ok h
    have := store_inv h1
    rcases putSegs_inv ss m1 (i + 1) m' h with e | e
    · subst e; simp only [List.length_cons, List.length_nil]; omega
    · simp only [List.length_cons]; omega

theorem getFrames_ok {o : Obj} {m : Mem} : ∀ (fs : List Frame) (i : Nat) (acc : List Frame), 2 + 4 * (i + fs.length) ≤ o.words →
    (∀ j f, fs[j]? = some f → Holds o m (i + j) f) → getFrames o m i fs.length acc = .ok (acc ++ fs)
  | [], _, acc, _, _ => by simp [getFrames]
  | f :: fs, i, acc, h, holds => by
    simp only [List.length_cons] at h ⊢
    have hf := holds 0 f rfl
    have rest := getFrames_ok (o := o) (m := m) fs (i + 1) (acc ++ [f]) (by omega) (by
      intro j g hj
      have := holds (j + 1) g (by simpa using hj)
      rwa [show i + (j + 1) = i + 1 + j by omega] at this)
    simp only [getFrames]
    have e : getFrame o m (2 + 4 * i) = .ok f := by
      unfold getFrame load
      rw [if_pos (by omega)]; simp only [Outcome.bind]
      rw [if_pos (by omega)]; simp only
      rw [if_pos (by omega)]; simp only
      rw [if_pos (by omega)]; simp only
      have a := hf.fn; have b := hf.label; have c := hf.bp; have d := hf.sp
      simp only [Nat.add_zero] at a b c d
      rw [a, b, c, d]
    rw [e]; simp only [Outcome.bind]
    rw [rest]; simp

theorem getSegs_ok {o : Obj} {len : Nat} {m : Mem} : ∀ (ss : List Word) (i : Nat) (acc : List Word), 2 + 4 * len + i + ss.length ≤ o.words →
    (∀ j s, ss[j]? = some s → m (o.base + (2 + 4 * len + (i + j))) = s) → getSegs o len m i ss.length acc = .ok (acc ++ ss)
  | [], _, acc, _, _ => by simp [getSegs]
  | s :: ss, i, acc, h, holds => by
    simp only [List.length_cons] at h ⊢
    have hs := holds 0 s rfl
    have rest := getSegs_ok (o := o) (len := len) (m := m) ss (i + 1) (acc ++ [s]) (by omega) (by
      intro j g hj
      have := holds (j + 1) g (by simpa using hj)
      rwa [show i + (j + 1) = i + 1 + j by omega] at this)
    simp only [getSegs]
    have e : load o m (2 + 4 * len + i) = .ok s := by
      unfold load
      rw [if_pos (by omega)]
      simp only [Nat.add_zero] at hs
      rw [hs]
    rw [e]; simp only [Outcome.bind]
    rw [rest]; simp

theorem toInt_small {n : Nat} (h : n < 2 ^ 31) : (BitVec.ofNat 32 n).toInt = n := by
  rw [BitVec.toInt_eq_toNat_cond, BitVec.toNat_ofNat, Nat.mod_eq_of_lt (by omega)]
  split <;> omega

/-- what is true of memory when an object holds a captured computation -/
structure Captured (o : Obj) (m : Mem) (fs : List Frame) (ss : List Word) : Prop where
  room : 2 + 4 * fs.length + ss.length ≤ o.words
  nframes : fs.length < 2 ^ 31
  nsegs : ss.length < 2 ^ 31
  head : m (o.base + 1) = pack (BitVec.ofNat 32 ss.length) (BitVec.ofNat 32 fs.length)
  frames : ∀ j f, fs[j]? = some f → Holds o m j f
  segs : ∀ j s, ss[j]? = some s → m (o.base + (2 + 4 * fs.length + j)) = s

theorem Captured.fields_eq {o : Obj} {m : Mem} {fs : List Frame} {ss : List Word} (h : Captured o m fs ss) :
    fields o m = .ok (ss.length, fs.length) := by
  have := h.room
  unfold fields load
  rw [if_pos (by omega)]; simp only [Outcome.bind]
  rw [h.head, low_pack, high_pack, toInt_small h.nsegs, toInt_small h.nframes]
  simp

theorem Captured.frames_eq {o : Obj} {m : Mem} {fs : List Frame} {ss : List Word} (h : Captured o m fs ss) (acc : List Frame) :
    getFrames o m 0 fs.length acc = .ok (acc ++ fs) := by
  have := h.room
  exact getFrames_ok fs 0 acc (by omega) (by simpa using h.frames)

theorem Captured.resume_eq {o : Obj} {m : Mem} {fs : List Frame} {ss : List Word} (h : Captured o m fs ss) (c : Control) :
    resume o m c = .ok ⟨c.frames ++ fs, c.segs ++ ss⟩ := by
  have := h.room
  unfold resume
  rw [h.fields_eq]; simp only [Outcome.bind]
  rw [h.frames_eq]; simp only
  rw [getSegs_ok ss 0 c.segs (by omega) (by simpa using h.segs)]

theorem mem_walk {f : Frame} {a : Nat} : a ∈ walk f.bp.toNat f.sp.toNat ↔ IsRegister f a := by
  simp only [walk, List.mem_map, List.mem_range, IsRegister]
  constructor
  · rintro ⟨i, hi, rfl⟩
    exact ⟨i, rfl, by omega⟩
  · rintro ⟨i, rfl, hi⟩
    exact ⟨i, by omega, rfl⟩

theorem Captured.marks_eq {o : Obj} {m : Mem} {fs : List Frame} {ss : List Word} (h : Captured o m fs ss) :
    ∃ l, marks o m = .ok l ∧ ∀ a, a ∈ l ↔ ∃ f ∈ fs, IsRegister f a := by
  refine ⟨fs.flatMap fun f => walk f.bp.toNat f.sp.toNat, ?_, ?_⟩
  · unfold marks
    rw [h.fields_eq]; simp only [Outcome.bind]
    rw [h.frames_eq]; simp
  · intro a
    simp only [List.mem_flatMap, mem_walk]

theorem Captured.keep {o : Obj} {m m' : Mem} {fs : List Frame} {ss : List Word} (h : Captured o m fs ss)
    (e : ∀ x, o.base ≤ x → x < o.base + o.words → m' x = m x) : Captured o m' fs ss := by
  have room := h.room
  refine ⟨room, h.nframes, h.nsegs, ?_, ?_, ?_⟩
  · rw [e _ (by omega) (by omega)]; exact h.head
  · intro j f hj
    have hlt : j < fs.length := (List.getElem?_eq_some_iff.mp hj).1
    have hf := h.frames j f hj
    constructor
    · rw [e _ (by omega) (by omega)]; exact hf.fn
    · rw [e _ (by omega) (by omega)]; exact hf.label
    · rw [e _ (by omega) (by omega)]; exact hf.bp
    · rw [e _ (by omega) (by omega)]; exact hf.sp
  · intro j s hj
    have hlt : j < ss.length := (List.getElem?_eq_some_iff.mp hj).1
    rw [e _ (by omega) (by omega)]; exact h.segs j s hj

theorem newObj_ok {place : Nat → Nat} {n : Nat} (h8 : 8 < n) (h : n < 64 * 1024 * 1024) :
    newObj place (BitVec.ofNat 32 n).toInt = .ok ⟨place n, n / 8⟩ := by
  rw [toInt_small (by omega)]
  unfold newObj MEM_BLOCK_SIZE HEAP_ARENA_SIZE
  rw [if_neg (by omega), if_neg (by omega), if_neg (by omega)]
  simp

theorem capture {place : Nat → Nat} {pad : Nat → BitVec 32} {head : Word} (m : Mem) (fs : List Frame) (ss : List Word)
    (h : 16 + 32 * fs.length + 8 * ss.length < 64 * 1024 * 1024) :
    ∃ o m', makeContinuation place pad head m fs ss = .ok (o, m') ∧ o = ⟨place (16 + 32 * fs.length + 8 * ss.length), 2 + 4 * fs.length + ss.length⟩ ∧
      Captured o m' fs ss ∧ ∀ x, x < o.base ∨ o.base + o.words ≤ x → m' x = m x := by
  have hb : bytes fs.length ss.length = 16 + 32 * fs.length + 8 * ss.length := by unfold bytes; omega
  have hw : (16 + 32 * fs.length + 8 * ss.length) / 8 = 2 + 4 * fs.length + ss.length := by omega
  obtain ⟨o, ho⟩ : ∃ o : Obj, o = ⟨place (16 + 32 * fs.length + 8 * ss.length), 2 + 4 * fs.length + ss.length⟩ := ⟨_, rfl⟩
  have hwords : o.words = 2 + 4 * fs.length + ss.length := by rw [ho]
  obtain ⟨m1, e1, k1, f1⟩ := putFrames_ok (o := o) (pad := pad) fs
    ((m.put (o.base + 0) head).put (o.base + 1) (pack (BitVec.ofNat 32 ss.length) (BitVec.ofNat 32 fs.length))) 0 (by omega)
  obtain ⟨m2, e2, k2, s2⟩ := putSegs_ok (o := o) (len := fs.length) ss m1 0 (by omega)
  refine ⟨o, m2, ?_, ho, ⟨by omega, by omega, by omega, ?_, ?_, ?_⟩, ?_⟩
  · unfold makeContinuation
    rw [hb, newObj_ok (by omega) h, hw, ← ho]; simp only [Outcome.bind]
    rw [store_ok (by omega)]; simp only
    rw [store_ok (by omega)]; simp only
    rw [e1]; simp only
    rw [e2]
  · rw [k2 _ (by omega), k1 _ (by omega)]; simp [Mem.put]
  · intro j f hj
    have hlt : j < fs.length := (List.getElem?_eq_some_iff.mp hj).1
    have hf := f1 j f hj
    rw [Nat.zero_add] at hf
    constructor
    · rw [k2 _ (by omega)]; exact hf.fn
    · rw [k2 _ (by omega)]; exact hf.label
    · rw [k2 _ (by omega)]; exact hf.bp
    · rw [k2 _ (by omega)]; exact hf.sp
  · intro j s hj
    have := s2 j s hj
    rwa [Nat.zero_add] at this
  · intro x hx
    rw [k2 _ (by omega), k1 _ (by omega)]
    simp only [Mem.put]
    rw [if_neg (by omega), if_neg (by omega)]

/-! ## The property -/

/-- **C109, first part.** A `throw` cuts the activations and the segments off at the mark of its `try` and keeps them in one object,
of which it writes no word outside. From then on, whatever is written to the rest of the memory, calling the resume function appends exactly
those activations and segments, in order, to the stacks of its caller, and the collector marks exactly the registers of those
activations; both read inside the object only. This holds as long as what is cut off takes less than 64 megabytes. -/
theorem C109_resume_partial (place : Nat → Nat) (pad : Nat → BitVec 32) (head : Word) (m : Mem) (c : Control) (callstackPos segmentStackPos : Nat)
    (fits : 16 + 32 * (c.frames.length - callstackPos) + 8 * (c.segs.length - segmentStackPos) < 64 * 1024 * 1024) :
    ∃ o m', throw place pad head m c callstackPos segmentStackPos =
        .ok (o, m', ⟨c.frames.take callstackPos, c.segs.take segmentStackPos⟩) ∧
      (∀ x, x < o.base ∨ o.base + o.words ≤ x → m' x = m x) ∧
      ∀ later : Mem, (∀ x, o.base ≤ x → x < o.base + o.words → later x = m' x) →
        (∀ caller : Control, resume o later caller =
          .ok ⟨caller.frames ++ c.frames.drop callstackPos, caller.segs ++ c.segs.drop segmentStackPos⟩) ∧
        ∃ l, marks o later = .ok l ∧ ∀ a, a ∈ l ↔ ∃ f ∈ c.frames.drop callstackPos, IsRegister f a := by
  obtain ⟨o, m', e, _, cap, keep⟩ := capture (place := place) (pad := pad) (head := head) m (c.frames.drop callstackPos)
    (c.segs.drop segmentStackPos) (by simpa using fits)
  refine ⟨o, m', by simp [throw, e, Outcome.bind], keep, fun later hl => ?_⟩
  have cap' := cap.keep hl
  exact ⟨cap'.resume_eq, cap'.marks_eq⟩

/-- **C109: nothing is lost.** Resuming on the stacks the `throw` left gives back the stacks it found. -/
theorem C109_whole_partial (place : Nat → Nat) (pad : Nat → BitVec 32) (head : Word) (m : Mem) (c : Control) (callstackPos segmentStackPos : Nat)
    (fits : 16 + 32 * (c.frames.length - callstackPos) + 8 * (c.segs.length - segmentStackPos) < 64 * 1024 * 1024) :
    ∃ o m' rest, throw place pad head m c callstackPos segmentStackPos = .ok (o, m', rest) ∧ resume o m' rest = .ok c := by
  obtain ⟨o, m', e, _, h⟩ := C109_resume_partial place pad head m c callstackPos segmentStackPos fits
  refine ⟨o, m', _, e, ?_⟩
  rw [(h m' fun _ _ _ => rfl).1]
  simp

/-- **C109: the room it takes.** The object has 16 bytes, 32 for each activation and 8 for each segment. -/
theorem C109_size (place : Nat → Nat) (pad : Nat → BitVec 32) (head : Word) (m : Mem) (c : Control) (callstackPos segmentStackPos : Nat)
    (o : Obj) (m' : Mem) (rest : Control) (h : throw place pad head m c callstackPos segmentStackPos = .ok (o, m', rest)) :
    8 * o.words = 16 + 32 * (c.frames.length - callstackPos) + 8 * (c.segs.length - segmentStackPos) ∧ 8 * o.words < 64 * 1024 * 1024 := by
  unfold throw at h
  obtain ⟨⟨o1, m1⟩, h', e⟩ := bind_ok h
  clear h
  have h := h'
  clear h'
  simp only [Outcome.ok.injEq, Prod.mk.injEq] at e
  obtain ⟨rfl, rfl, _⟩ := e
  have small : 16 + 32 * (c.frames.length - callstackPos) + 8 * (c.segs.length - segmentStackPos) < 64 * 1024 * 1024 := by
    unfold makeContinuation at h
    obtain ⟨o2, h0, h⟩ := bind_ok h
    obtain ⟨_, _, h⟩ := bind_ok h
    obtain ⟨_, h2, h⟩ := bind_ok h
    obtain ⟨m3, h3, h⟩ := bind_ok h
    obtain ⟨m4, h4, h⟩ := bind_ok h
    have hw : 8 * o2.words < 64 * 1024 * 1024 := by
      unfold newObj MEM_BLOCK_SIZE HEAP_ARENA_SIZE at h0
      split at h0
      · cases h0
      · split at h0
        · cases h0
        · split at h0
          · cases h0
          · simp only [Outcome.ok.injEq] at h0
            subst h0
            simp only
            omega
    have w2 := store_inv h2
    have f3 := putFrames_inv _ _ _ _ h3
    have s4 := putSegs_inv _ _ _ _ h4
    simp only [List.length_drop, List.drop_eq_nil_iff] at f3 s4
    omega
  obtain ⟨o3, m3, e, ho, _, _⟩ := capture (place := place) (pad := pad) (head := head) m (c.frames.drop callstackPos)
    (c.segs.drop segmentStackPos) (by simpa using small)
  rw [h] at e
  simp only [Outcome.ok.injEq, Prod.mk.injEq] at e
  obtain ⟨rfl, rfl⟩ := e
  rw [ho]
  simp only [List.length_drop]
  omega

/-- **C109 fails for deep computations.** From 64 megabytes on (a little over two million activations between `try` and `throw`), a `throw`
never gets to its handler. -/
theorem C109_deep_wrong (place : Nat → Nat) (pad : Nat → BitVec 32) (head : Word) (m : Mem) (c : Control) (callstackPos segmentStackPos : Nat)
    (deep : 64 * 1024 * 1024 ≤ 16 + 32 * (c.frames.length - callstackPos) + 8 * (c.segs.length - segmentStackPos)) :
    (∀ r, throw place pad head m c callstackPos segmentStackPos ≠ .ok r) ∧
    (16 + 32 * (c.frames.length - callstackPos) + 8 * (c.segs.length - segmentStackPos) < 2 ^ 31 →
      throw place pad head m c callstackPos segmentStackPos = .abort) := by
  constructor
  · rintro ⟨o, m', rest⟩ h
    have := C109_size place pad head m c callstackPos segmentStackPos o m' rest h
    omega
  · intro small
    unfold throw makeContinuation
    have hb : bytes (c.frames.drop callstackPos).length (c.segs.drop segmentStackPos).length =
        16 + 32 * (c.frames.length - callstackPos) + 8 * (c.segs.length - segmentStackPos) := by
      unfold bytes; simp only [List.length_drop]; omega
    rw [hb, toInt_small small]
    unfold newObj MEM_BLOCK_SIZE HEAP_ARENA_SIZE
    rw [if_neg (by omega), if_neg (by omega), if_pos (by omega)]
    rfl

/-! ## Concrete cases -/

def f1 : Frame := ⟨0x401000, 3, 0x7f0000, 0x7f0010⟩
def f2 : Frame := ⟨0x402000, BitVec.ofInt 32 (-1), 0x7f0010, 0x7f0018⟩
def f3 : Frame := ⟨0x403000, 1, 0x7f1000, 0x7f1020⟩
def c0 : Control := ⟨[f1, f2, f3], [0x7f0000, 0x7f1000]⟩

example : 16 + 32 * (c0.frames.length - 1) + 8 * (c0.segs.length - 1) < 64 * 1024 * 1024 := by decide

def cut : Obj × Mem × Control := match throw (fun _ => 100) (fun _ => 77) 5 (fun _ => 0) c0 1 1 with
  | .ok r => r
  | _ => (⟨0, 0⟩, fun _ => 0, ⟨[], []⟩)

def again : Control := match resume cut.1 cut.2.1 ⟨[f3], [1]⟩ with
  | .ok c => c
  | _ => ⟨[], []⟩

example : cut.1 = ⟨100, 11⟩ ∧ cut.2.2.frames = [f1] ∧ cut.2.2.segs = [0x7f0000] := by decide +kernel
example : marks cut.1 cut.2.1 = .ok [0x7f0010, 0x7f1000, 0x7f1008, 0x7f1010, 0x7f1018] := by decide +kernel
example : again.frames = [f3, f2, f3] ∧ again.segs = [1, 0x7f1000] := by decide +kernel

/-- a recursion of 2097152 activations under a `try` -/
example (deep : List Frame) (h : deep.length = 2097152) :
    throw (fun _ => 100) (fun _ => 0) 0 (fun _ => 0) ⟨f1 :: deep, [0x7f0000]⟩ 1 1 = .abort :=
  (C109_deep_wrong _ _ _ _ _ _ _ (by simp only [List.length_cons, h]; omega)).2 (by simp only [List.length_cons, h, List.length_nil]; omega)
example : ∃ deep : List Frame, deep.length = 2097152 := ⟨List.replicate _ f2, List.length_replicate⟩

end Cora.Continuation
