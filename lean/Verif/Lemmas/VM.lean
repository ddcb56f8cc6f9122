import Verif.Model.VM
/-
The relation between the states of the virtual machine and those of the abstract machine, and how each operation
keeps it.
-/
open Spec.Machine
namespace Cora.VM

variable {W : Type}

/-- the frame lies in the segment at `b` -/
def InSeg (b : Nat) (f : Frame) : Prop := b ≤ f.bp ∧ f.bp ≤ f.sp ∧ f.sp < b + 256

/-- the first address above the slots of a frame that matter -/
def top (f : Frame) : Nat := if f.fn = none then f.bp else f.sp

/-- `fs` lies under the address `lim` of the segments `segs`: in the same segment or in the one below. With `strict`,
going to the segment below happens only at the start of a segment. -/
def Under (strict : Prop) (segs : List Nat) (lim : Nat) (fs : List Frame) (segs' : List Nat) : Prop :=
  (segs' = segs ∧ ∀ f ∈ fs.head?, top f ≤ lim) ∨ ∃ b, segs = b :: segs' ∧ (strict → lim = b)

/-- frames of the concrete stack and activations of the abstract one -/
inductive Stk (strict : Prop) (mem : Nat → Val) :
    List Nat → List Frame → List AFrame → List Mark → List (List Val) → Prop where
  | code (b : Nat) (r : List Nat) (f : Frame) (fs : List Frame) (c : Code) (as : List AFrame) (ms : List Mark)
      (cs : List (List Val)) (segs' : List Nat) : InSeg b f → f.fn = some c →
      Under strict (b :: r) f.bp fs segs' → Stk strict mem segs' fs as ms cs →
      Stk strict mem (b :: r) (f :: fs) (.code c f.label (readMem mem f.bp (f.sp - f.bp)) :: as) ms cs
  | rest (b : Nat) (r : List Nat) (f : Frame) (fs : List Frame) (args : List Val) (as : List AFrame)
      (ms : List Mark) (cs : List (List Val)) (segs' : List Nat) : InSeg b f → f.fn = none →
      Under strict (b :: r) f.bp fs segs' → Stk strict mem segs' fs as ms cs → args ≠ [] →
      Stk strict mem (b :: r) (f :: fs) (.rest args :: as) ms (args :: cs)
  | exit (b : Nat) (r : List Nat) (f : Frame) : InSeg b f → f.fn = none →
      Stk strict mem (b :: r) [f] [.exit] [] []
  | handler (b : Nat) (r : List Nat) (fs : List Frame) (h : Val) (as : List AFrame) (ms : List Mark)
      (cs : List (List Val)) : mem (b + 2) = h → Stk strict mem r fs as ms cs →
      Stk strict mem (b :: r) (⟨some .tryCatch, 1, b, b + 3⟩ :: fs) (.handler h :: as)
        (⟨fs.length, r.length⟩ :: ms) cs

/-- a captured piece of stack, from the top to its `try` -/
inductive Frag (strict : Prop) (mem : Nat → Val) : List Nat → List Frame → List AFrame → Val → Prop where
  | base (t : Nat) (h : Val) : mem (t + 2) = h → Frag strict mem [t] [⟨some .tryCatch, 1, t, t + 3⟩] [] h
  | code (b : Nat) (r : List Nat) (f : Frame) (fs : List Frame) (c : Code) (as : List AFrame) (h : Val)
      (segs' : List Nat) : InSeg b f → f.fn = some c → Under strict (b :: r) f.bp fs segs' →
      Frag strict mem segs' fs as h →
      Frag strict mem (b :: r) (f :: fs) (.code c f.label (readMem mem f.bp (f.sp - f.bp)) :: as) h

/-- two segments do not overlap -/
def Apart (b b' : Nat) : Prop := b + 256 ≤ b' ∨ b' + 256 ≤ b

/-- `segs` is `segs'`, maybe with one more segment on top -/
def Ext (segs segs' : List Nat) : Prop := segs = segs' ∨ ∃ b, segs = b :: segs'

/-- the part of the relation about captured continuations -/
structure Conts (strict : Prop) (c : Cora W) (aconts : List (Option (List AFrame × Val))) : Prop where
  len : c.conts.length = aconts.length
  frag : ∀ (id : Nat) pre h, aconts[id]? = some (some (pre, h)) → ∃ k : List Frame × List Nat, c.conts[id]? = some k ∧
    (∃ segs', Ext k.2 segs' ∧ Frag strict c.mem segs' k.1 pre h) ∧ k.2.Nodup ∧ ∀ s ∈ k.2, s ∈ c.heap ∧ s ∉ c.data
  apart : ∀ (id id' : Nat) p p' (k k' : List Frame × List Nat), id ≠ id' → aconts[id]? = some (some p) → aconts[id']? = some (some p') →
    c.conts[id]? = some k → c.conts[id']? = some k' → ∀ s ∈ k.2, s ∉ k'.2

/-- the part of the relation that does not mention the stack contents -/
structure Mem (c : Cora W) : Prop where
  seg : ∃ r, c.data = c.begin_ :: r
  end_eq : c.end_ = c.begin_ + 256
  nodup : c.data.Nodup
  heap : ∀ s ∈ c.data, s ∈ c.heap
  apart : c.heap.Pairwise Apart

/-- the relation -/
structure Rel (strict : Prop) (c : Cora W) (a : ASt W) : Prop where
  stk : Stk strict c.mem c.data (c.ctx :: c.callstack) (a.cur :: a.stack) c.trystack c.cstack
  mem : Mem c
  conts : Conts strict c a.conts
  res : a.res = c.res
  w : a.w = c.w

/-- the relation just before a frame is allocated at `lo`, or a value returned: the current frame does not matter
any more -/
structure Pre (strict : Prop) (c : Cora W) (a : ASt W) (lo : Nat) (segs' : List Nat) : Prop where
  stk : Stk strict c.mem segs' c.callstack a.stack c.trystack c.cstack
  under : Under strict c.data lo c.callstack segs'
  lo1 : c.begin_ ≤ lo
  lo2 : lo < c.begin_ + 256
  mem : Mem c
  conts : Conts strict c a.conts
  res : a.res = c.res
  w : a.w = c.w

/-- no activation reaches over more than one segment boundary: of two neighbouring frames, the lower one ends in the
segment of the upper one or in the one below it -/
def Spans : List Nat → List Frame → Prop
  | _, [] => True
  | segs, f :: fs => (∃ b r, segs = b :: r ∧ b ≤ f.sp ∧ f.sp < b + 256) ∧
      (Spans segs fs ∨ ∃ b r, segs = b :: r ∧ Spans r fs)

theorem readMem_length (mem : Nat → Val) (a n : Nat) : (readMem mem a n).length = n := by simp [readMem]

theorem readMem_congr {mem mem' : Nat → Val} {a n : Nat} (h : ∀ p, a ≤ p → p < a + n → mem' p = mem p) :
    readMem mem' a n = readMem mem a n := by
  unfold readMem
  apply List.map_congr_left
  intro i hi
  rw [List.mem_range] at hi
  exact h _ (by omega) (by omega)

theorem Stk.ne {strict : Prop} {mem : Nat → Val} {segs fs as ms cs} (h : Stk strict mem segs fs as ms cs) :
    fs ≠ [] := by cases h <;> simp

theorem Stk.head {strict : Prop} {mem : Nat → Val} {segs f fs as ms cs} (h : Stk strict mem segs (f :: fs) as ms cs) :
    ∃ b r, segs = b :: r ∧ InSeg b f := by
  generalize he : f :: fs = l at h
  cases h with
  | code b r f' fs' c as ms cs segs' h1 h2 h3 h4 => injection he with e1 e2; subst e1; exact ⟨b, r, rfl, h1⟩
  | rest b r f' fs' args as ms cs segs' h1 h2 h3 h4 h5 => injection he with e1 e2; subst e1; exact ⟨b, r, rfl, h1⟩
  | exit b r f' h1 h2 => injection he with e1 e2; subst e1; exact ⟨b, r, rfl, h1⟩
  | handler b r fs' hh as ms cs h1 h2 =>
    injection he with e1 e2; subst e1; exact ⟨b, r, rfl, by simp [InSeg]⟩

theorem Frag.ne {strict : Prop} {mem : Nat → Val} {segs fs as h} (hf : Frag strict mem segs fs as h) : fs ≠ [] := by
  cases hf <;> simp

theorem Frag.segs_ne {strict : Prop} {mem : Nat → Val} {segs fs as h} (hf : Frag strict mem segs fs as h) :
    segs ≠ [] := by cases hf <;> simp

theorem top_le {f : Frame} {b : Nat} (h : InSeg b f) : top f ≤ f.sp := by
  unfold top
  split
  · exact h.2.1
  · exact Nat.le_refl _

/-- changing memory only at or above `lo` in the top segment (or outside the segments) keeps the stack -/
theorem Stk.mem_congr {strict : Prop} {mem mem' : Nat → Val} {segs fs as ms cs} (h : Stk strict mem segs fs as ms cs) :
    ∀ lo, segs.Nodup → (∀ f ∈ fs.head?, top f ≤ lo) →
    (∀ s ∈ segs, ∀ p, s ≤ p → p < s + 256 → (segs.head? = some s → p < lo) → mem' p = mem p) →
    Stk strict mem' segs fs as ms cs := by
  induction h with
  | code b r f fs c as ms cs segs' h1 h2 h3 h4 ih =>
    intro lo hn hl hm
    have ht : f.sp ≤ lo := by have := hl f (by simp); simpa [top, h2] using this
    have hr : readMem mem' f.bp (f.sp - f.bp) = readMem mem f.bp (f.sp - f.bp) := by
      apply readMem_congr
      intro p hp1 hp2
      have := h1.1
      have := h1.2.1
      have := h1.2.2
      exact hm b (by simp) p (by omega) (by omega) (fun _ => by omega)
    rw [← hr]
    refine .code b r f fs c as ms cs segs' h1 h2 h3 ?_
    have := h1.2.1
    rcases h3 with ⟨h3, h5⟩ | ⟨b', h3, _⟩
    · subst h3
      exact ih f.bp hn h5 (fun s hs p p1 p2 p3 => hm s hs p p1 p2 (fun hh => by have := p3 hh; omega))
    · injection h3 with h31 h32
      subst h32
      rw [List.nodup_cons] at hn
      cases r with
      | nil => cases h4
      | cons b2 r2 =>
        refine ih (b2 + 512) hn.2 ?_ ?_
        · intro f' hf'
          obtain ⟨fs1, hfs⟩ : ∃ t, fs = f' :: t := by
            cases fs with
            | nil => simp at hf'
            | cons x t => simp at hf'; exact ⟨t, by rw [hf']⟩
          rw [hfs] at h4
          obtain ⟨b3, r3, e1, e2⟩ := h4.head
          injection e1 with e11 e12
          have := top_le e2
          have := e2.2.2
          omega
        · intro s hs p p1 p2 _
          refine hm s (by simp [hs]) p p1 p2 ?_
          intro hh
          simp at hh
          subst hh
          exact absurd hs hn.1
  | rest b r f fs args as ms cs segs' h1 h2 h3 h4 h5 ih =>
    intro lo hn hl hm
    have ht : f.bp ≤ lo := by have := hl f (by simp); simpa [top, h2] using this
    refine .rest b r f fs args as ms cs segs' h1 h2 h3 ?_ h5
    rcases h3 with ⟨h3, h5⟩ | ⟨b', h3, _⟩
    · subst h3
      exact ih f.bp hn h5 (fun s hs p p1 p2 p3 => hm s hs p p1 p2 (fun hh => by have := p3 hh; omega))
    · injection h3 with h31 h32
      subst h32
      rw [List.nodup_cons] at hn
      cases r with
      | nil => cases h4
      | cons b2 r2 =>
        refine ih (b2 + 512) hn.2 ?_ ?_
        · intro f' hf'
          obtain ⟨fs1, hfs⟩ : ∃ t, fs = f' :: t := by
            cases fs with
            | nil => simp at hf'
            | cons x t => simp at hf'; exact ⟨t, by rw [hf']⟩
          rw [hfs] at h4
          obtain ⟨b3, r3, e1, e2⟩ := h4.head
          injection e1 with e11 e12
          have := top_le e2
          have := e2.2.2
          omega
        · intro s hs p p1 p2 _
          refine hm s (by simp [hs]) p p1 p2 ?_
          intro hh
          simp at hh
          subst hh
          exact absurd hs hn.1
  | exit b r f h1 h2 => intro lo hn hl hm; exact .exit b r f h1 h2
  | handler b r fs h as ms cs h1 h2 ih =>
    intro lo hn hl hm
    have ht : b + 3 ≤ lo := by have := hl _ rfl; simpa [top] using this
    refine .handler b r fs h as ms cs ?_ ?_
    · rw [← h1]; exact hm b (by simp) _ (by omega) (by omega) (fun _ => by omega)
    · rw [List.nodup_cons] at hn
      cases r with
      | nil => cases h2
      | cons b2 r2 =>
        refine ih (b2 + 512) hn.2 ?_ ?_
        · intro f' hf'
          obtain ⟨fs1, hfs⟩ : ∃ t, fs = f' :: t := by
            cases fs with
            | nil => simp at hf'
            | cons x t => simp at hf'; exact ⟨t, by rw [hf']⟩
          rw [hfs] at h2
          obtain ⟨b3, r3, e1, e2⟩ := h2.head
          injection e1 with e11 e12
          have := top_le e2
          have := e2.2.2
          omega
        · intro s hs p p1 p2 _
          refine hm s (by simp [hs]) p p1 p2 ?_
          intro hh
          simp at hh
          subst hh
          exact absurd hs hn.1

/-- if none of the segments of a stack is touched -/
theorem Stk.mem_congr_all {strict : Prop} {mem mem' : Nat → Val} {segs fs as ms cs}
    (h : Stk strict mem segs fs as ms cs) (hn : segs.Nodup)
    (hm : ∀ s ∈ segs, ∀ p, s ≤ p → p < s + 256 → mem' p = mem p) : Stk strict mem' segs fs as ms cs := by
  cases fs with
  | nil => exact absurd rfl h.ne
  | cons f fs =>
    obtain ⟨b, r, e1, e2⟩ := h.head
    refine h.mem_congr (top f) hn (by simp) (fun s hs p p1 p2 _ => hm s hs p p1 p2)

theorem Frag.mem_congr {strict : Prop} {mem mem' : Nat → Val} {segs fs as h} (hf : Frag strict mem segs fs as h)
    (hm : ∀ s ∈ segs, ∀ p, s ≤ p → p < s + 256 → mem' p = mem p) : Frag strict mem' segs fs as h := by
  induction hf with
  | base t h h1 => exact .base t h (by rw [← h1]; exact hm t (by simp) _ (by omega) (by omega))
  | code b r f fs c as h segs' h1 h2 h3 h4 ih =>
    have hr : readMem mem' f.bp (f.sp - f.bp) = readMem mem f.bp (f.sp - f.bp) := by
      apply readMem_congr
      intro p hp1 hp2
      have := h1.1
      have := h1.2.1
      have := h1.2.2
      exact hm b (by simp) p (by omega) (by omega)
    rw [← hr]
    refine .code b r f fs c as h segs' h1 h2 h3 (ih ?_)
    intro s hs
    apply hm
    rcases h3 with ⟨h3, _⟩ | ⟨b', h3, _⟩
    · rw [← h3]; exact hs
    · injection h3 with _ h32; rw [h32]; simp [hs]

/-- cut a stack at its innermost `try` -/
theorem Stk.split {strict : Prop} {mem : Nat → Val} {h : Val} {post : List AFrame} (pre : List AFrame) :
    ∀ {segs fs ms cs}, Stk strict mem segs fs (pre ++ .handler h :: post) ms cs → (∀ f ∈ pre, f.isCode) →
    ∃ f1 f2 ms' fsegs rest t, fs = f1 ++ f2 ∧ ms = ⟨f2.length, rest.length⟩ :: ms' ∧ segs = fsegs ++ rest ∧
      Frag strict mem fsegs f1 pre h ∧ Stk strict mem rest f2 post ms' cs ∧
      f1.getLast? = some ⟨some .tryCatch, 1, t, t + 3⟩ ∧ mem (t + 2) = h ∧ t ∈ fsegs := by
  induction pre with
  | nil =>
    intro segs fs ms cs hs _
    generalize he : [] ++ AFrame.handler h :: post = l at hs
    cases hs with
    | code => simp at he
    | rest => simp at he
    | exit => simp at he
    | handler b r fs' hh as ms' cs h1 h2 =>
      simp at he
      obtain ⟨e1, e2⟩ := he
      subst e1 e2
      exact ⟨[⟨some .tryCatch, 1, b, b + 3⟩], fs', ms', [b], r, b, rfl, rfl, rfl, .base b h h1, h2, rfl, h1, by simp⟩
  | cons a pre ih =>
    intro segs fs ms cs hs hp
    generalize he : (a :: pre) ++ AFrame.handler h :: post = l at hs
    cases hs with
    | rest =>
      simp at he
      have := hp a (by simp)
      rw [he.1] at this
      exact absurd this (by simp [AFrame.isCode])
    | exit => simp at he
    | handler =>
      simp at he
      have := hp a (by simp)
      rw [he.1] at this
      exact absurd this (by simp [AFrame.isCode])
    | code b r f fs' c as ms cs segs' h1 h2 h3 h4 =>
      simp at he
      obtain ⟨e1, e2⟩ := he
      subst e1 e2
      obtain ⟨f1, f2, ms', fsegs, rest, t, g1, g2, g3, g4, g5, g6, g7, g8⟩ := ih h4 (fun f hf => hp f (by simp [hf]))
      have hf1 : f1 ≠ [] := g4.ne
      have hlast : (f :: f1).getLast? = some ⟨some .tryCatch, 1, t, t + 3⟩ := by
        cases f1 with
        | nil => exact absurd rfl hf1
        | cons x y => rw [List.getLast?_cons_cons]; exact g6
      rcases h3 with ⟨h3, h5⟩ | ⟨b', h3, h5⟩
      · cases fsegs with
        | nil => exact absurd rfl g4.segs_ne
        | cons b1 r1 =>
          have hb : b1 = b ∧ r = r1 ++ rest := by
            rw [h3, List.cons_append] at g3
            injection g3 with x1 x2
            exact ⟨x1.symm, x2⟩
          obtain ⟨hb, hr⟩ := hb
          subst hb hr
          refine ⟨f :: f1, f2, ms', b1 :: r1, rest, t, by simp [g1], g2, rfl, ?_, g5, hlast, g7, g8⟩
          refine .code b1 r1 f f1 c pre h (b1 :: r1) h1 h2 (Or.inl ⟨rfl, ?_⟩) g4
          intro f' hf'
          apply h5
          rw [g1]
          cases f1 with
          | nil => exact absurd rfl hf1
          | cons x y => simpa using hf'
      · injection h3 with h31 h32
        subst h31 h32
        refine ⟨f :: f1, f2, ms', b :: fsegs, rest, t, by simp [g1], g2, by simp [g3], ?_, g5, hlast, g7, by simp [g8]⟩
        exact .code b fsegs f f1 c pre h fsegs h1 h2 (Or.inr ⟨b, rfl, h5⟩) g4

/-- put a captured piece on a stack -/
theorem Frag.join {strict : Prop} {mem : Nat → Val} {fsegs f1 pre h} (hf : Frag strict mem fsegs f1 pre h)
    {rest : List Nat} {f2 : List Frame} {post : List AFrame} {ms : List Mark} {cs : List (List Val)}
    (hs : Stk strict mem rest f2 post ms cs) :
    Stk strict mem (fsegs ++ rest) (f1 ++ f2) (pre ++ .handler h :: post) (⟨f2.length, rest.length⟩ :: ms) cs := by
  induction hf with
  | base t h h1 => exact .handler t rest f2 h post ms cs h1 hs
  | code b r f fs c as h segs' h1 h2 h3 h4 ih =>
    refine .code b (r ++ rest) f (fs ++ f2) c _ _ _ (segs' ++ rest) h1 h2 ?_ ih
    rcases h3 with ⟨h3, h5⟩ | ⟨b', h3, h5⟩
    · refine Or.inl ⟨by rw [h3]; rfl, ?_⟩
      intro f' hf'
      apply h5
      have := h4.ne
      cases fs with
      | nil => exact absurd rfl this
      | cons x y => simpa using hf'
    · injection h3 with h31 h32
      exact Or.inr ⟨b', by rw [h31, h32], h5⟩

/-! ### memory -/

theorem Mem.valid {c : Cora W} (h : Mem c) {s p : Nat} (hs : s ∈ c.heap) (h1 : s ≤ p) (h2 : p < s + 256) :
    c.valid p = true := by
  unfold Cora.valid
  rw [List.any_eq_true]
  exact ⟨s, hs, by simp [h1, h2]⟩

/-- writing into one segment -/
theorem store_ok {c : Cora W} (h : Mem c) {s a : Nat} {vs : List Val} (hs : s ∈ c.heap) (h1 : s ≤ a)
    (h2 : a + vs.length ≤ s + 256) :
    c.store a vs = some { c with mem := fun p => if a ≤ p ∧ p < a + vs.length then vs.getD (p - a) .nil else c.mem p } := by
  unfold Cora.store
  rw [if_pos]
  intro i hi
  exact h.valid hs (by omega) (by omega)

theorem readMem_store {mem : Nat → Val} {a : Nat} {vs : List Val} :
    readMem (fun p => if a ≤ p ∧ p < a + vs.length then vs.getD (p - a) .nil else mem p) a vs.length = vs := by
  apply List.ext_getElem
  · simp [readMem]
  · intro i h1 h2
    simp [readMem, h2]

theorem readMem_split (mem : Nat → Val) (a n m : Nat) : readMem mem a (n + m) = readMem mem a n ++ readMem mem (a + n) m := by
  unfold readMem
  rw [List.range_add, List.map_append, List.map_map]
  congr 1
  apply List.map_congr_left
  intro i _
  simp [Nat.add_assoc]

theorem readMem_prefix {mem : Nat → Val} {a n : Nat} {vs : List Val} (h : vs.length ≤ n) : ∃ junk,
    readMem (fun p => if a ≤ p ∧ p < a + vs.length then vs.getD (p - a) .nil else mem p) a n = vs ++ junk := by
  obtain ⟨m, rfl⟩ : ∃ m, n = vs.length + m := ⟨n - vs.length, by omega⟩
  rw [readMem_split, readMem_store]
  exact ⟨_, rfl⟩

/-- the registers of the current frame can be read -/
theorem regs_ok {c : Cora W} (h : Mem c) (hi : InSeg c.begin_ c.ctx) :
    c.regs = some (readMem c.mem c.ctx.bp (c.ctx.sp - c.ctx.bp)) := by
  obtain ⟨r, hd⟩ := h.seg
  unfold Cora.regs
  rw [if_pos]
  intro i hlt
  have := hi.1
  have := hi.2.1
  have := hi.2.2
  exact h.valid (h.heap c.begin_ (by rw [hd]; simp)) (by omega) (by omega)

/-- continuations survive when their segments are not touched and stay allocated -/
theorem Conts.congr {strict : Prop} {c c' : Cora W} {ac} (h : Conts strict c ac) (hc : c'.conts = c.conts)
    (hheap : ∀ s ∈ c.heap, s ∉ c.data → s ∈ c'.heap) (hdata : ∀ s ∈ c.heap, s ∉ c.data → s ∉ c'.data)
    (hmem : ∀ s ∈ c.heap, s ∉ c.data → ∀ p, s ≤ p → p < s + 256 → c'.mem p = c.mem p) : Conts strict c' ac := by
  refine ⟨by rw [hc]; exact h.len, ?_, ?_⟩
  · intro id pre hh he
    obtain ⟨k, k1, ⟨segs', k2, k3⟩, k4, k5⟩ := h.frag id pre hh he
    refine ⟨k, by rw [hc]; exact k1, ⟨segs', k2, ?_⟩, k4, ?_⟩
    · apply k3.mem_congr
      intro s hs
      have hk : s ∈ k.2 := by
        rcases k2 with k2 | ⟨b, k2⟩
        · rw [k2]; exact hs
        · rw [k2]; simp [hs]
      exact hmem s (k5 s hk).1 (k5 s hk).2
    · intro s hs
      exact ⟨hheap s (k5 s hs).1 (k5 s hs).2, hdata s (k5 s hs).1 (k5 s hs).2⟩
  · intro id id' p p' k k' hne h1 h2 h3 h4
    rw [hc] at h3 h4
    exact h.apart id id' p p' k k' hne h1 h2 h3 h4

theorem apart_of_mem {h : List Nat} (hp : h.Pairwise Apart) {b b' : Nat} (hb : b ∈ h) (hb' : b' ∈ h) (hne : b ≠ b') :
    Apart b b' := by
  induction hp with
  | nil => simp at hb
  | cons h1 h2 ih =>
    rcases List.mem_cons.mp hb with e | hbt
    · rcases List.mem_cons.mp hb' with e' | hbt'
      · exact absurd (e.trans e'.symm) hne
      · rw [e]; exact h1 _ hbt'
    · rcases List.mem_cons.mp hb' with e' | hbt'
      · have := h1 _ hbt
        rw [e']
        unfold Apart at this ⊢
        omega
      · exact ih hbt hbt'

/-! ### return -/

theorem return_ok {strict : Prop} {c : Cora W} {a : ASt W} {lo : Nat} {segs' : List Nat} (h : Pre strict c a lo segs')
    (v : Val) : ∃ c' a', coraReturn c v = some c' ∧ Return v a a' ∧ Rel strict c' a' := by
  obtain ⟨hstk, hunder, _, _, hmem, hconts, hres, hw⟩ := h
  obtain ⟨r, hd⟩ := hmem.seg
  cases hcs : c.callstack with
  | nil => rw [hcs] at hstk; exact absurd rfl hstk.ne
  | cons f fs =>
    rw [hcs] at hstk hunder
    cases has : a.stack with
    | nil => rw [has] at hstk; cases hstk
    | cons af afs =>
      rw [has] at hstk
      obtain ⟨b, r', e1, e2⟩ := hstk.head
      have e21 := e2.1
      have e22 := e2.2.1
      have e23 := e2.2.2
      refine (?_ : ∃ c' a', _)
      by_cases hin : segs' = c.data
      · have hb : b = c.begin_ := by
          rw [hin, hd] at e1; injection e1 with x _; exact x.symm
        refine ⟨{ c with res := v, ctx := f, callstack := fs }, { a with cur := af, res := v, stack := afs }, ?_,
          .mk a af afs has, ⟨?_, ⟨⟨r, hd⟩, hmem.end_eq, hmem.nodup, hmem.heap, hmem.apart⟩, ?_, rfl, hw⟩⟩
        · unfold coraReturn
          rw [hcs]
          simp only []
          rw [if_neg]
          rw [hmem.end_eq]
          omega
        · rw [hin] at hstk
          exact hstk
        · exact hconts.congr rfl (fun s h _ => h) (fun s _ h => h) (fun _ _ _ _ _ _ => rfl)
      · obtain ⟨b0, hb0⟩ : ∃ b0, c.data = b0 :: segs' := by
          rcases hunder with ⟨h, _⟩ | ⟨b0, h, _⟩
          · exact absurd h hin
          · exact ⟨b0, h⟩
        have hbb : b0 = c.begin_ := by rw [hd] at hb0; injection hb0 with x _; exact x.symm
        subst hbb
        have hnd := hmem.nodup
        rw [hb0, List.nodup_cons] at hnd
        have hbne : c.begin_ ≠ b := by
          intro he
          apply hnd.1
          rw [e1, he]
          simp
        have hap := apart_of_mem hmem.apart (hmem.heap c.begin_ (by rw [hb0]; simp))
          (hmem.heap b (by rw [hb0, e1]; simp)) hbne
        have hend := hmem.end_eq
        refine ⟨{ c with res := v, ctx := f, callstack := fs, heap := c.heap.erase c.begin_, data := b :: r',
                         begin_ := b, end_ := b + 256 }, { a with cur := af, res := v, stack := afs }, ?_,
          .mk a af afs has, ⟨?_, ?_, ?_, rfl, hw⟩⟩
        · unfold coraReturn
          rw [hcs]
          simp only []
          rw [if_pos]
          · unfold coraReturnSlowPath
            rw [hb0, e1]
            simp only [if_true]
            rw [if_pos ⟨by omega, e23⟩]
          · unfold Apart at hap
            omega
        · rw [← e1]
          exact hstk
        · refine ⟨⟨r', rfl⟩, rfl, ?_, ?_, ?_⟩
          · rw [← e1]; exact hnd.2
          · intro s hs
            rw [← e1] at hs
            have hne : s ≠ c.begin_ := fun he => hnd.1 (he ▸ hs)
            exact (List.mem_erase_of_ne hne).mpr (hmem.heap s (by rw [hb0]; simp [hs]))
          · exact hmem.apart.sublist List.erase_sublist
        · refine hconts.congr rfl ?_ ?_ (fun _ _ _ _ _ _ => rfl)
          · intro s hs hsd
            refine (List.mem_erase_of_ne ?_).mpr hs
            intro he
            apply hsd
            rw [hb0, he]
            simp
          · intro s _ hsd he
            apply hsd
            rw [hb0, e1]
            exact List.mem_cons_of_mem _ he

/-! ### calls -/

/-- `malloc` gives a segment that overlaps no allocated one -/
def Fresh (malloc : List Nat → Nat) : Prop := ∀ h, ∀ s ∈ h, Apart (malloc h) s

theorem enter_desc {malloc : List Nat → Nat} (hmal : Fresh malloc) {c : Cora W} (hm : Mem c) (h1 : c.begin_ ≤ c.ctx.sp)
    (h2 : c.ctx.sp < c.begin_ + 256) {code : Code} {nf req : Nat} {d args : List Val} (hlen : args.length + 1 ≤ nf)
    (hnf : nf < 256) :
    ∃ c' x, enter malloc c (.native code nf req d) args = some c' ∧
      c'.callstack = c.callstack ∧ c'.trystack = c.trystack ∧ c'.cstack = c.cstack ∧ c'.conts = c.conts ∧
      c'.res = c.res ∧ c'.w = c.w ∧ c'.ctx = ⟨some code, 0, x, x + nf⟩ ∧ Mem c' ∧ InSeg c'.begin_ c'.ctx ∧
      ((c'.data = c.data ∧ c'.heap = c.heap ∧ c'.begin_ = c.begin_ ∧ x = c.ctx.sp) ∨
        (c'.data = x :: c.data ∧ c'.heap = x :: c.heap ∧ c'.begin_ = x ∧ (∀ s ∈ c.heap, Apart x s) ∧
          c.begin_ + 256 ≤ c.ctx.sp + nf)) ∧
      (∀ p, p < x ∨ x + nf ≤ p → c'.mem p = c.mem p) ∧
      ∃ junk, readMem c'.mem x nf = .native code nf req d :: args ++ junk := by
  obtain ⟨r, hd⟩ := hm.seg
  have hend := hm.end_eq
  have hn0 : ¬ nf = 0 := by omega
  by_cases hfit : c.ctx.sp + nf < c.end_
  · have ha : stackAlloc malloc c nf = some { c with ctx := { c.ctx with bp := c.ctx.sp, sp := c.ctx.sp + nf } } := by
      unfold stackAlloc; rw [if_neg hn0, if_pos hfit]
    have hm1 : Mem { c with ctx := { c.ctx with bp := c.ctx.sp, sp := c.ctx.sp + nf } } :=
      ⟨⟨r, hd⟩, hm.end_eq, hm.nodup, hm.heap, hm.apart⟩
    have hs := store_ok hm1 (s := c.begin_) (a := c.ctx.sp) (vs := .native code nf req d :: args)
      (hm.heap c.begin_ (by rw [hd]; simp)) h1 (by simp; omega)
    refine ⟨{ c with ctx := ⟨some code, 0, c.ctx.sp, c.ctx.sp + nf⟩, mem := fun p => if c.ctx.sp ≤ p ∧ p < c.ctx.sp + (Val.native code nf req d :: args).length
      then (Val.native code nf req d :: args).getD (p - c.ctx.sp) .nil else c.mem p }, c.ctx.sp, ?_, rfl, rfl, rfl, rfl, rfl, rfl, rfl, ⟨⟨r, hd⟩, hm.end_eq, hm.nodup, hm.heap, hm.apart⟩,
      ⟨h1, by simp, by simp; omega⟩, Or.inl ⟨rfl, rfl, rfl, rfl⟩, ?_, ?_⟩
    · unfold enter
      simp only [ha, Option.bind_eq_bind, Option.bind_some]
      rw [hs]
      rfl
    · intro p hp
      show (if _ then _ else _) = _
      rw [if_neg]
      simp
      omega
    · exact readMem_prefix (by simp; omega)
  · have ha : stackAlloc malloc c nf = some { segmentStackAlloc malloc c with
        ctx := { c.ctx with bp := malloc c.heap, sp := malloc c.heap + nf } } := by
      unfold stackAlloc stackAllocSlowPath; rw [if_neg hn0, if_neg hfit, if_pos hnf]; rfl
    have hap : ∀ s ∈ c.heap, Apart (malloc c.heap) s := hmal c.heap
    have hm1 : Mem { segmentStackAlloc malloc c with
        ctx := { c.ctx with bp := malloc c.heap, sp := malloc c.heap + nf } } := by
      refine ⟨⟨c.data, rfl⟩, rfl, ?_, ?_, ?_⟩
      · show (malloc c.heap :: c.data).Nodup
        rw [List.nodup_cons]
        refine ⟨fun hin => ?_, hm.nodup⟩
        have := hap _ (hm.heap _ hin)
        unfold Apart at this
        omega
      · intro s hs
        show s ∈ malloc c.heap :: c.heap
        rcases List.mem_cons.mp hs with e | hs
        · rw [e]; simp
        · exact List.mem_cons_of_mem _ (hm.heap s hs)
      · exact List.pairwise_cons.mpr ⟨hap, hm.apart⟩
    have hs := store_ok hm1 (s := malloc c.heap) (a := malloc c.heap) (vs := .native code nf req d :: args)
      (by show _ ∈ malloc c.heap :: c.heap; simp) (Nat.le_refl _) (by simp; omega)
    refine ⟨{ segmentStackAlloc malloc c with ctx := ⟨some code, 0, malloc c.heap, malloc c.heap + nf⟩, mem := fun p => if malloc c.heap ≤ p ∧ p < malloc c.heap + (Val.native code nf req d :: args).length
      then (Val.native code nf req d :: args).getD (p - malloc c.heap) .nil else c.mem p }, malloc c.heap, ?_, rfl, rfl, rfl, rfl, rfl, rfl, rfl, ⟨hm1.seg, hm1.end_eq, hm1.nodup, hm1.heap, hm1.apart⟩,
      ⟨Nat.le_refl _, by simp, by show _ + _ < malloc c.heap + 256; omega⟩, Or.inr ⟨rfl, rfl, rfl, hap, by omega⟩, ?_, ?_⟩
    · unfold enter
      simp only [ha, Option.bind_eq_bind, Option.bind_some]
      rw [hs]
      rfl
    · intro p hp
      show (if _ then _ else _) = _
      rw [if_neg]
      simp
      omega
    · exact readMem_prefix (by simp; omega)

/-- the segments of the stack do not overlap -/
theorem Mem.apart_data {c : Cora W} (hm : Mem c) {s s' : Nat} (hs : s ∈ c.data) (hs' : s' ∈ c.data) (hne : s ≠ s') :
    Apart s s' := apart_of_mem hm.apart (hm.heap s hs) (hm.heap s' hs') hne

/-- `Spans` of the frames below the top one -/
def Near (segs : List Nat) (fs : List Frame) : Prop := Spans segs fs ∨ ∃ b r, segs = b :: r ∧ Spans r fs

theorem Spans.near {segs : List Nat} {f : Frame} {fs : List Frame} (h : Spans segs (f :: fs)) : Near segs fs := by
  unfold Spans at h
  exact h.2

theorem Spans.head {segs : List Nat} {f : Frame} {fs : List Frame} (h : Spans segs (f :: fs)) :
    ∃ b r, segs = b :: r ∧ b ≤ f.sp ∧ f.sp < b + 256 := by
  unfold Spans at h
  exact h.1

/-- a frame is in one segment only -/
theorem not_both {b b' p : Nat} (h : Apart b b') (h1 : b ≤ p) (h2 : p < b + 256) (h3 : b' ≤ p) (h4 : p < b' + 256) :
    False := by
  unfold Apart at h
  omega

theorem enter_core {malloc : List Nat → Nat} (hmal : Fresh malloc) {strict : Prop} {c : Cora W} {a : ASt W}
    {segs' : List Nat} (h : Pre strict c a c.ctx.sp segs') {code : Code} {nf req : Nat} {d args : List Val}
    (hlen : args.length + 1 ≤ nf) (hnf : nf < 256) :
    ∃ c' x, enter malloc c (.native code nf req d) args = some c' ∧
      c'.callstack = c.callstack ∧ c'.trystack = c.trystack ∧ c'.cstack = c.cstack ∧
      c'.res = c.res ∧ c'.w = c.w ∧ c'.ctx = ⟨some code, 0, x, x + nf⟩ ∧ Mem c' ∧ InSeg c'.begin_ c'.ctx ∧
      Conts strict c' a.conts ∧
      Stk strict c'.mem segs' c'.callstack a.stack c'.trystack c'.cstack ∧
      (strict ∨ Near c'.data c'.callstack → Under strict c'.data x c'.callstack segs') ∧
      ∃ junk, readMem c'.mem x nf = .native code nf req d :: args ++ junk := by
  obtain ⟨hstk, hunder, hlo1, hlo2, hm, hconts, hres, hw⟩ := h
  obtain ⟨c', x, e1, e2, e3, e4, e5, e6, e7, e8, e9, e10, e11, e12, e13⟩ :=
    enter_desc (code := code) (req := req) (d := d) hmal hm hlo1 hlo2 hlen hnf
  have hi := e10
  rw [e8] at hi
  have hi1 := hi.1
  have hi2 := hi.2.1
  have hi3 := hi.2.2
  simp only [] at hi1 hi2 hi3
  obtain ⟨rr, hdd⟩ := hm.seg
  have hbh : c.begin_ ∈ c.heap := hm.heap _ (by rw [hdd]; simp)
  have hsub : ∀ s ∈ segs', s ∈ c.data := by
    intro s hs
    rcases hunder with ⟨hu, _⟩ | ⟨b, hu, _⟩
    · rw [← hu]; exact hs
    · rw [hu]; simp [hs]
  have hnd' : segs'.Nodup := by
    have := hm.nodup
    rcases hunder with ⟨hu, _⟩ | ⟨b, hu, _⟩
    · rw [hu]; exact this
    · rw [hu, List.nodup_cons] at this; exact this.2
  refine ⟨c', x, e1, e2, e3, e4, e6, e7, e8, e9, e10, ?_, ?_, ?_, e13⟩
  · -- continuations
    rcases e11 with ⟨g1, g2, g3, g4⟩ | ⟨g1, g2, g3, g4, g5⟩
    · refine hconts.congr e5 (fun s hs _ => by rw [g2]; exact hs) (fun s _ hs => by rw [g1]; exact hs) ?_
      intro s hs hsd p hp1 hp2
      apply e12
      have hne : c.begin_ ≠ s := fun he => hsd (by rw [hdd, ← he]; simp)
      have := apart_of_mem hm.apart hbh hs hne
      unfold Apart at this
      omega
    · refine hconts.congr e5 (fun s hs _ => by rw [g2]; simp [hs]) ?_ ?_
      · intro s hs hsd
        rw [g1, List.mem_cons]
        intro hor
        rcases hor with hx | hx
        · have := g4 s hs
          unfold Apart at this
          omega
        · exact hsd hx
      · intro s hs hsd p hp1 hp2
        apply e12
        have := g4 s hs
        unfold Apart at this
        omega
  · -- stack
    rw [e2, e3, e4]
    rcases e11 with ⟨g1, g2, g3, g4⟩ | ⟨g1, g2, g3, g4, g5⟩
    · rcases hunder with ⟨hu, htop⟩ | ⟨b, hu, _⟩
      · subst hu
        refine hstk.mem_congr c.ctx.sp hnd' htop ?_
        intro s hs p hp1 hp2 hp3
        apply e12
        by_cases he : c.begin_ = s
        · have := hp3 (by rw [hdd, he]; rfl)
          omega
        · have := hm.apart_data (by rw [hdd]; simp) hs he
          unfold Apart at this
          omega
      · refine hstk.mem_congr_all hnd' ?_
        intro s hs p hp1 hp2
        apply e12
        have hb : b = c.begin_ := by rw [hdd] at hu; injection hu with x _; exact x.symm
        have hne : c.begin_ ≠ s := by
          intro he
          have := hm.nodup
          rw [hu, List.nodup_cons] at this
          exact this.1 (by rw [hb, he]; exact hs)
        have := hm.apart_data (by rw [hdd]; simp) (hsub s hs) hne
        unfold Apart at this
        omega
    · refine hstk.mem_congr_all hnd' ?_
      intro s hs p hp1 hp2
      apply e12
      have := g4 s (hm.heap s (hsub s hs))
      unfold Apart at this
      omega
  · -- the new frame is near
    intro hor
    rw [e2] at hor ⊢
    rcases e11 with ⟨g1, g2, g3, g4⟩ | ⟨g1, g2, g3, g4, g5⟩
    · rw [g1, g4]; exact hunder
    · by_cases hsd : segs' = c.data
      · refine Or.inr ⟨x, ?_, fun _ => rfl⟩
        rw [g1, hsd]
      · exfalso
        rcases hunder with ⟨hu, _⟩ | ⟨b, hu, hst⟩
        · exact hsd hu
        · have hb : b = c.begin_ := by rw [hdd] at hu; injection hu with x _; exact x.symm
          rcases hor with hor | hor
          · have := hst hor
            omega
          · cases hcs : c.callstack with
            | nil => rw [hcs] at hstk; exact absurd rfl hstk.ne
            | cons f fs =>
              rw [hcs] at hstk hor
              obtain ⟨b2, r2, k1, k2, k3, k4⟩ := hstk.head
              have hb2 : b2 ∈ c.data := hsub b2 (by rw [k1]; simp)
              rcases hor with hor | ⟨b', r', hor1, hor⟩
              · obtain ⟨b3, r3, j1, j2, j3⟩ := hor.head
                rw [g1] at j1
                injection j1 with j11 j12
                subst j11
                exact not_both (g4 b2 (hm.heap _ hb2)) j2 j3 (by omega) (by omega)
              · rw [g1] at hor1
                injection hor1 with o1 o2
                obtain ⟨b3, r3, j1, j2, j3⟩ := hor.head
                rw [← o2, hdd] at j1
                injection j1 with j11 j12
                have hne : c.begin_ ≠ b2 := by
                  intro he
                  have := hm.nodup
                  rw [hu, List.nodup_cons] at this
                  exact this.1 (by rw [hb, he, k1]; simp)
                exact not_both (hm.apart_data (by rw [hdd]; simp) hb2 hne) (by omega) (by omega)
                  (Nat.le_trans k2 k3) k4

/-- after a call, with the guard -/
abbrev Good (strict : Prop) (c' : Cora W) : Prop := strict ∨ Spans c'.data (c'.ctx :: c'.callstack)

theorem enter_rel {malloc : List Nat → Nat} (hmal : Fresh malloc) {strict : Prop} {c : Cora W} {a a0 : ASt W}
    {segs' : List Nat} (h : Pre strict c a c.ctx.sp segs') {f : Val} {args : List Val} (he : Enter f args a a0) :
    ∃ c', enter malloc c f args = some c' ∧ (Good strict c' → ∃ a', Enter f args a a' ∧ Rel strict c' a') := by
  cases he with
  | mk code nf req d junk _ hf hargs hlen hnf =>
    subst hf
    simp at hlen
    obtain ⟨c', x, e1, e2, e3, e4, e6, e7, e8, e9, e10, e11, e12, e13, junk', e14⟩ :=
      enter_core (code := code) (req := req) (d := d) (args := args) hmal h (by omega) hnf
    refine ⟨c', e1, fun hg => ⟨{ a with cur := .code code 0 (.native code nf req d :: args ++ junk') },
      .mk code nf req d junk' a rfl hargs ?_ hnf, ?_, e9, e11, ?_, ?_⟩⟩
    · rw [← e14, readMem_length]
    · obtain ⟨r, hd⟩ := e9.seg
      have hu := e13 (by
        rcases hg with hg | hg
        · exact Or.inl hg
        · exact Or.inr hg.near)
      rw [hd] at hu ⊢
      have := Stk.code c'.begin_ r c'.ctx c'.callstack code a.stack c'.trystack c'.cstack segs' (mem := c'.mem)
        (strict := strict) e10 (by rw [e8]) (by rw [e8]; exact hu) e12
      have hr : readMem c'.mem c'.ctx.bp (c'.ctx.sp - c'.ctx.bp) = .native code nf req d :: args ++ junk' := by
        rw [e8]; simp only []; rw [Nat.add_sub_cancel_left, e14]
      rw [hr] at this
      have hl : c'.ctx.label = 0 := by rw [e8]
      rw [hl] at this
      exact this
    · rw [e6]; exact h.res
    · rw [e7]; exact h.w

theorem applies_native {f : Val} {args : List Val} {a a' : ASt W} (h : Applies f args a a') :
    ∃ c nf req d, f = .native c nf req d := by
  cases h with
  | exact _ _ _ _ h => cases h with | mk c nf req d _ _ hf => exact ⟨c, nf, req, d, hf⟩
  | none c nf req d => exact ⟨c, nf, req, d, rfl⟩
  | less c nf req d => exact ⟨c, nf, req, d, rfl⟩
  | more c nf req d => exact ⟨c, nf, req, d, rfl⟩

theorem applies_exact {c : Code} {nf req : Nat} {d args : List Val} {a a' : ASt W}
    (h : Applies (.native c nf req d) args a a') (hr : req = args.length) : Enter (.native c nf req d) args a a' := by
  cases h with
  | exact _ _ _ _ h => exact h
  | none _ _ _ _ _ _ h => simp at hr; omega
  | less _ _ _ _ _ _ _ h1 h => omega
  | more _ _ _ _ _ _ _ h => omega

/-- the calls with at least one argument -/
theorem coraCall_rel {malloc : List Nat → Nat} (hmal : Fresh malloc) {strict : Prop} {c : Cora W} {a a0 : ASt W}
    {segs' : List Nat} (h : Pre strict c a c.ctx.sp segs') {f : Val} {args : List Val} (hne : args ≠ [])
    (hap : Applies f args a a0) :
    ∃ c', coraCall malloc c f args = some c' ∧ (Good strict c' → ∃ a', Applies f args a a' ∧ Rel strict c' a') := by
  obtain ⟨code, nf, req, d, hf⟩ := applies_native hap
  subst hf
  by_cases hreq : req = args.length
  · have he := applies_exact hap hreq
    obtain ⟨c', g1, g2⟩ := enter_rel hmal h he
    have hlen : args.length ≤ nf := by
      cases he with
      | mk _ _ _ _ junk _ hf hargs hlen hnf => simp at hf; simp at hlen; omega
    refine ⟨c', ?_, fun hg => ?_⟩
    · unfold coraCall; simp only []; rw [if_neg (by omega), if_pos hlen]; exact g1
    · obtain ⟨a', x1, x2⟩ := g2 hg
      exact ⟨a', .exact _ _ _ _ x1, x2⟩
  · have hc : coraCall malloc c (.native code nf req d) args = coraDispatch malloc c (.native code nf req d) args := by
      unfold coraCall; simp only []; rw [if_pos hreq]
    rw [hc]
    by_cases hlt : args.length < req
    · obtain ⟨c', a', g1, g2, g3⟩ := return_ok h (.native .curry nf (req - args.length) (.native code nf req d :: args))
      refine ⟨c', ?_, fun _ => ⟨a', .less code nf req d args a a' hne hlt g2, g3⟩⟩
      unfold coraDispatch makeCurry
      simp only [if_pos hlt, Option.bind_eq_bind, Option.bind_some]
      exact g1
    · have hmore : Enter (.native code nf req d) (args.take req)
          { a with stack := .rest (args.drop req) :: a.stack } a0 := by
        cases hap with
        | exact _ _ _ _ h => cases h with | mk _ _ _ _ _ _ hf hargs => simp at hf; omega
        | none => exact absurd rfl hne
        | less _ _ _ _ _ _ _ h1 h => omega
        | more _ _ _ _ _ _ _ h h' => exact h'
      cases hmore with
      | mk _ _ _ _ junk _ hf hargs hlen hnf =>
        obtain ⟨rfl, rfl, rfl, rfl⟩ : code = _ ∧ nf = _ ∧ req = _ ∧ d = _ := by simpa using hf
        simp at hlen
        obtain ⟨c', x, e1, e2, e3, e4, e6, e7, e8, e9, e10, e11, e12, e13, junk', e14⟩ :=
          enter_core (code := code) (req := req) (d := d) (args := args.take req) hmal h (by simp; omega) hnf
        refine ⟨{ c' with callstack := ⟨none, 0, c'.ctx.bp, c'.ctx.sp⟩ :: c'.callstack,
                          cstack := args.drop req :: c'.cstack }, ?_, fun hg => ?_⟩
        · unfold coraDispatch
          simp only [if_neg hlt, e1, Option.bind_eq_bind, Option.bind_some]
        · obtain ⟨r, hd⟩ := e9.seg
          have hdrop : args.drop req ≠ [] := by
            intro he
            have := congrArg List.length he
            simp at this
            omega
          have hu := e13 (by
            rcases hg with hg | hg
            · exact Or.inl hg
            · right
              have h1 := hg.near
              rcases h1 with h1 | ⟨b, r', hb, h1⟩
              · exact h1.near
              · exfalso
                obtain ⟨b3, r3, j1, j2, j3⟩ := h1.head
                simp only [] at hb j2 j3
                rw [hd] at hb
                injection hb with hb1 hb2
                have hbne : c'.begin_ ≠ b3 := by
                  intro he
                  have := e9.nodup
                  rw [hd, List.nodup_cons, hb2, j1, he] at this
                  exact this.1 (by simp)
                exact not_both (e9.apart_data (by rw [hd]; simp) (by rw [hd, hb2, j1]; simp) hbne)
                  (Nat.le_trans e10.1 e10.2.1) e10.2.2 j2 j3)
          refine ⟨{ a with cur := .code code 0 (.native code nf req d :: args.take req ++ junk'),
                           stack := .rest (args.drop req) :: a.stack },
            .more code nf req d args a _ (by omega) (.mk code nf req d junk' _ rfl hargs ?_ hnf), ?_, ?_, ?_, ?_, ?_⟩
          · rw [← e14, readMem_length]
          · show Stk strict c'.mem c'.data (c'.ctx :: ⟨none, 0, c'.ctx.bp, c'.ctx.sp⟩ :: c'.callstack) _ c'.trystack
              (args.drop req :: c'.cstack)
            rw [hd] at hu ⊢
            have hs1 := Stk.rest c'.begin_ r ⟨none, 0, c'.ctx.bp, c'.ctx.sp⟩ c'.callstack (args.drop req) a.stack
              c'.trystack c'.cstack segs' (mem := c'.mem) (strict := strict) e10 rfl
              (by simp only [e8]; exact hu) e12 hdrop
            have := Stk.code c'.begin_ r c'.ctx _ code _ _ _ (c'.begin_ :: r) (mem := c'.mem)
              (strict := strict) e10 (by rw [e8]) (Or.inl ⟨rfl, by simp [top]⟩) hs1
            have hr : readMem c'.mem c'.ctx.bp (c'.ctx.sp - c'.ctx.bp) = .native code nf req d :: args.take req ++ junk' := by
              rw [e8]; simp only []; rw [Nat.add_sub_cancel_left, e14]
            rw [hr] at this
            have hl : c'.ctx.label = 0 := by rw [e8]
            rw [hl] at this
            exact this
          · exact ⟨e9.seg, e9.end_eq, e9.nodup, e9.heap, e9.apart⟩
          · exact e11.congr rfl (fun s h _ => h) (fun s _ h => h) (fun _ _ _ _ _ _ => rfl)
          · show a.res = c'.res
            rw [e6]; exact h.res
          · show a.w = c'.w
            rw [e7]; exact h.w

theorem coraCall14_rel {malloc : List Nat → Nat} (hmal : Fresh malloc) {strict : Prop} {c : Cora W} {a a0 : ASt W}
    {segs' : List Nat} (h : Pre strict c a c.ctx.sp segs') {f : Val} {args : List Val} (hne : args ≠ [])
    (hap : Applies f args a a0) :
    ∃ c', coraCall14 malloc c f args = some c' ∧ (Good strict c' → ∃ a', Applies f args a a' ∧ Rel strict c' a') := by
  obtain ⟨code, nf, req, d, hf⟩ := applies_native hap
  subst hf
  by_cases hreq : req = args.length
  · obtain ⟨c', g1, g2⟩ := enter_rel hmal h (applies_exact hap hreq)
    refine ⟨c', ?_, fun hg => ?_⟩
    · unfold coraCall14; simp only []; rw [if_neg (by omega)]; exact g1
    · obtain ⟨a', x1, x2⟩ := g2 hg
      exact ⟨a', .exact _ _ _ _ x1, x2⟩
  · have hc : coraCall14 malloc c (.native code nf req d) args = coraCall malloc c (.native code nf req d) args := by
      unfold coraCall14; simp only []; rw [if_pos hreq]
    rw [hc]
    exact coraCall_rel hmal h hne hap

theorem coraCall0_rel {malloc : List Nat → Nat} (hmal : Fresh malloc) {strict : Prop} {c : Cora W} {a a0 : ASt W}
    {segs' : List Nat} (h : Pre strict c a c.ctx.sp segs') {f : Val} (hap : Applies f [] a a0) :
    ∃ c', coraCall0 malloc c f = some c' ∧ (Good strict c' → ∃ a', Applies f [] a a' ∧ Rel strict c' a') := by
  obtain ⟨code, nf, req, d, hf⟩ := applies_native hap
  subst hf
  by_cases hreq : req = 0
  · obtain ⟨c', g1, g2⟩ := enter_rel hmal h (applies_exact hap (by simp [hreq]))
    refine ⟨c', ?_, fun hg => ?_⟩
    · unfold coraCall0; simp only []; rw [if_neg (by omega)]; exact g1
    · obtain ⟨a', x1, x2⟩ := g2 hg
      exact ⟨a', .exact _ _ _ _ x1, x2⟩
  · obtain ⟨c', a', g1, g2, g3⟩ := return_ok h (.native code nf req d)
    refine ⟨c', ?_, fun _ => ⟨a', .none code nf req d a a' (by omega) g2, g3⟩⟩
    unfold coraCall0; simp only []; rw [if_pos hreq]; exact g1

theorem callN_rel {malloc : List Nat → Nat} (hmal : Fresh malloc) {strict : Prop} {c : Cora W} {a a0 : ASt W}
    {segs' : List Nat} (h : Pre strict c a c.ctx.sp segs') {f : Val} {args : List Val} (hap : Applies f args a a0) :
    ∃ c', callN malloc c f args = some c' ∧ (Good strict c' → ∃ a', Applies f args a a' ∧ Rel strict c' a') := by
  unfold callN
  by_cases h0 : args.length = 0
  · rw [if_pos h0]
    have := List.eq_nil_of_length_eq_zero h0
    subst this
    exact coraCall0_rel hmal h hap
  · have hne : args ≠ [] := fun he => h0 (by rw [he]; rfl)
    rw [if_neg h0]
    by_cases h4 : args.length ≤ 4
    · rw [if_pos h4]; exact coraCall14_rel hmal h hne hap
    · rw [if_neg h4]; exact coraCall_rel hmal h hne hap

/-! ### steps -/

/-- `Pre` does not depend on the current frame, nor on the memory above `lo` -/
theorem Pre.congr {strict : Prop} {c c' : Cora W} {a a' : ASt W} {lo : Nat} {segs' : List Nat}
    (h : Pre strict c a lo segs') (h1 : c'.callstack = c.callstack) (h2 : c'.trystack = c.trystack)
    (h3 : c'.cstack = c.cstack) (h4 : c'.data = c.data) (h5 : c'.begin_ = c.begin_) (h6 : c'.end_ = c.end_)
    (h7 : c'.heap = c.heap) (h8 : c'.conts = c.conts) (h9 : a'.stack = a.stack) (h10 : a'.conts = a.conts)
    (h11 : a'.res = c'.res) (h12 : a'.w = c'.w)
    (hmem : ∀ p, p < lo ∨ c.begin_ + 256 ≤ p → c'.mem p = c.mem p) : Pre strict c' a' lo segs' := by
  obtain ⟨hstk, hunder, hlo1, hlo2, hm, hconts, _, _⟩ := h
  obtain ⟨r, hd⟩ := hm.seg
  refine ⟨?_, by rw [h4, h1]; exact hunder, by rw [h5]; exact hlo1, by rw [h5]; exact hlo2,
    ⟨⟨r, by rw [h4, h5]; exact hd⟩, by rw [h6, h5]; exact hm.end_eq, by rw [h4]; exact hm.nodup,
      by rw [h4, h7]; exact hm.heap, by rw [h7]; exact hm.apart⟩, ?_, h11, h12⟩
  · rw [h1, h2, h3, h9]
    rcases hunder with ⟨hu, htop⟩ | ⟨b, hu, _⟩
    · subst hu
      refine hstk.mem_congr lo hm.nodup htop ?_
      intro s hs p hp1 hp2 hp3
      apply hmem
      by_cases he : c.begin_ = s
      · exact Or.inl (hp3 (by rw [hd, he]; rfl))
      · have := hm.apart_data (by rw [hd]; simp) hs he
        unfold Apart at this
        omega
    · have hnd := hm.nodup
      rw [hu, List.nodup_cons] at hnd
      refine hstk.mem_congr_all hnd.2 ?_
      intro s hs p hp1 hp2
      apply hmem
      have hb : b = c.begin_ := by rw [hd] at hu; injection hu with x _; exact x.symm
      have hne : c.begin_ ≠ s := fun he => hnd.1 (by rw [hb, he]; exact hs)
      have := hm.apart_data (by rw [hd]; simp) (by rw [hu]; simp [hs]) hne
      unfold Apart at this
      omega
  · rw [h10]
    refine hconts.congr h8 (fun s hs _ => by rw [h7]; exact hs) (fun s _ hs => by rw [h4]; exact hs) ?_
    intro s hs hsd p hp1 hp2
    apply hmem
    have hne : c.begin_ ≠ s := fun he => hsd (by rw [hd, ← he]; simp)
    have := apart_of_mem hm.apart (hm.heap _ (by rw [hd]; simp)) hs hne
    unfold Apart at this
    omega

theorem Stk.code_inv {strict : Prop} {mem : Nat → Val} {segs fs as ms cs} (h : Stk strict mem segs fs as ms cs)
    {code : Code} {l : Nat} {regs : List Val} {as' : List AFrame} (he : as = .code code l regs :: as') :
    ∃ b r f fs' segs', segs = b :: r ∧ fs = f :: fs' ∧ InSeg b f ∧ f.fn = some code ∧ f.label = l ∧
      regs = readMem mem f.bp (f.sp - f.bp) ∧ Under strict segs f.bp fs' segs' ∧ Stk strict mem segs' fs' as' ms cs := by
  cases h with
  | code b r f fs' cc as'' ms cs segs' h1 h2 h3 h4 =>
    injection he with he1 he2
    injection he1 with he3 he4 he5
    subst he2 he3
    exact ⟨b, r, f, fs', segs', rfl, rfl, h1, h2, he4, he5.symm, h3, h4⟩
  | rest => injection he with he1; exact absurd he1 (by simp)
  | exit => injection he with he1; exact absurd he1 (by simp)
  | handler => injection he with he1; exact absurd he1 (by simp)

theorem Stk.rest_inv {strict : Prop} {mem : Nat → Val} {segs fs as ms cs} (h : Stk strict mem segs fs as ms cs)
    {args : List Val} {as' : List AFrame} (he : as = .rest args :: as') :
    ∃ b r f fs' segs' cs', segs = b :: r ∧ fs = f :: fs' ∧ InSeg b f ∧ f.fn = none ∧ cs = args :: cs' ∧ args ≠ [] ∧
      Under strict segs f.bp fs' segs' ∧ Stk strict mem segs' fs' as' ms cs' := by
  cases h with
  | rest b r f fs' args' as'' ms cs segs' h1 h2 h3 h4 h5 =>
    injection he with he1 he2
    injection he1 with he3
    subst he2 he3
    exact ⟨b, r, f, fs', segs', cs, rfl, rfl, h1, h2, rfl, h5, h3, h4⟩
  | code => injection he with he1; exact absurd he1 (by simp)
  | exit => injection he with he1; exact absurd he1 (by simp)
  | handler => injection he with he1; exact absurd he1 (by simp)

theorem Stk.handler_inv {strict : Prop} {mem : Nat → Val} {segs fs as ms cs} (h : Stk strict mem segs fs as ms cs)
    {hh : Val} {as' : List AFrame} (he : as = .handler hh :: as') :
    ∃ b r fs' ms', segs = b :: r ∧ fs = ⟨some .tryCatch, 1, b, b + 3⟩ :: fs' ∧
      ms = ⟨fs'.length, r.length⟩ :: ms' ∧ mem (b + 2) = hh ∧ Stk strict mem r fs' as' ms' cs := by
  cases h with
  | handler b r fs' h' as'' ms' cs h1 h2 =>
    injection he with he1 he2
    injection he1 with he3
    subst he2 he3
    exact ⟨b, r, fs', ms', rfl, rfl, rfl, h1, h2⟩
  | code => injection he with he1; exact absurd he1 (by simp)
  | exit => injection he with he1; exact absurd he1 (by simp)
  | rest => injection he with he1; exact absurd he1 (by simp)

/-- the current frame when code runs -/
theorem Rel.code_inv {strict : Prop} {c : Cora W} {a : ASt W} (h : Rel strict c a) {code : Code} {l : Nat}
    {regs : List Val} (hc : a.cur = .code code l regs) :
    ∃ segs', InSeg c.begin_ c.ctx ∧ c.ctx.fn = some code ∧ c.ctx.label = l ∧
      regs = readMem c.mem c.ctx.bp (c.ctx.sp - c.ctx.bp) ∧ c.regs = some regs ∧
      Pre strict c a c.ctx.bp segs' := by
  obtain ⟨hstk, hm, hconts, hres, hw⟩ := h
  obtain ⟨r, hd⟩ := hm.seg
  obtain ⟨b, r', f, fs', segs', e1, e2, h1, h2, h3, h4, h5, h6⟩ := hstk.code_inv (by rw [hc])
  injection e2 with e21 e22
  subst e21 e22
  have hb : b = c.begin_ := by rw [hd] at e1; injection e1 with x _; exact x.symm
  subst hb
  exact ⟨segs', h1, h2, h3, h4, by rw [h4]; exact regs_ok hm h1,
    ⟨h6, h5, h1.1, Nat.lt_of_le_of_lt h1.2.1 h1.2.2, hm, hconts, hres, hw⟩⟩

theorem user_rel {malloc : List Nat → Nat} (hmal : Fresh malloc) {sem : Sem W} {strict : Prop} {c : Cora W} {a a0 : ASt W}
    (h : Rel strict c a) {n l : Nat} {regs : List Val} (hc : a.cur = .code (.user n) l regs) (hs : AStep sem a a0) :
    ∃ c', step malloc sem c = some c' ∧ (Good strict c' → ∃ a', AStep sem a a' ∧ Rel strict c' a') := by
  obtain ⟨segs', hin, hfn, hlab, hregs, hcr, hpre⟩ := h.code_inv hc
  have hi1 := hin.1
  have hi2 := hin.2.1
  have hi3 := hin.2.2
  obtain ⟨r, hd⟩ := h.mem.seg
  have hstep : step malloc sem c = userBlock malloc sem n c := by unfold step; rw [hfn]
  rw [hstep]
  have hlen : regs.length = c.ctx.sp - c.ctx.bp := by rw [hregs, readMem_length]
  -- what the block does before it ends
  have key : ∀ o : Out W, sem n l regs a.res a.w = some o → o.regs.length = regs.length →
      ∃ mem', (∀ p, p < c.ctx.bp ∨ c.begin_ + 256 ≤ p → mem' p = c.mem p) ∧
        readMem mem' c.ctx.bp (c.ctx.sp - c.ctx.bp) = o.regs ∧
        userBlock malloc sem n c = match o.term with
          | .ret v => coraReturn { c with mem := mem', w := o.w } v
          | .tail f args =>
            callN malloc { c with mem := mem', w := o.w, ctx := { c.ctx with sp := c.ctx.bp } } f args
          | .call l f args => callN malloc (saveCont { c with mem := mem', w := o.w } (.user n) l c.ctx.bp) f args := by
    intro o ho hol
    have hst := store_ok h.mem (s := c.begin_) (a := c.ctx.bp) (vs := o.regs)
      (h.mem.heap _ (by rw [hd]; simp)) hi1 (by omega)
    refine ⟨fun p => if c.ctx.bp ≤ p ∧ p < c.ctx.bp + o.regs.length then o.regs.getD (p - c.ctx.bp) .nil else c.mem p,
      ?_, ?_, ?_⟩
    rotate_left 2
    · have ho' : sem n c.ctx.label regs c.res c.w = some o := by rw [hlab, ← h.res, ← h.w]; exact ho
      unfold userBlock
      simp only [hcr, ho', Option.bind_eq_bind, Option.bind_some, if_pos hol, hst]
      cases o.term <;> rfl
    · intro p hp
      show (if _ then _ else _) = _
      rw [if_neg]
      omega
    · rw [← hlen, ← hol]
      exact readMem_store
  cases hs with
  | ret n' l' regs' o v _ _ hc' ho hol ht hr =>
    rw [hc] at hc'
    obtain ⟨rfl, rfl, rfl⟩ : n = n' ∧ l = l' ∧ regs = regs' := by simpa using hc'
    obtain ⟨mem', hm1, hm2, hu⟩ := key o ho hol
    rw [hu, ht]
    have hp : Pre strict { c with mem := mem', w := o.w } { a with w := o.w } c.ctx.bp segs' :=
      hpre.congr rfl rfl rfl rfl rfl rfl rfl rfl rfl rfl h.res rfl hm1
    obtain ⟨c', a', g1, g2, g3⟩ := return_ok hp v
    exact ⟨c', g1, fun _ => ⟨a', .ret n l regs o v a a' hc ho hol ht g2, g3⟩⟩
  | tail n' l' regs' o f args _ _ hc' ho hol ht hr =>
    rw [hc] at hc'
    obtain ⟨rfl, rfl, rfl⟩ : n = n' ∧ l = l' ∧ regs = regs' := by simpa using hc'
    obtain ⟨mem', hm1, hm2, hu⟩ := key o ho hol
    rw [hu, ht]
    have hp : Pre strict { c with mem := mem', w := o.w, ctx := { c.ctx with sp := c.ctx.bp } } { a with w := o.w }
        c.ctx.bp segs' :=
      hpre.congr rfl rfl rfl rfl rfl rfl rfl rfl rfl rfl h.res rfl hm1
    obtain ⟨c', g1, g2⟩ := callN_rel hmal hp hr
    refine ⟨c', g1, fun hg => ?_⟩
    obtain ⟨a', g3, g4⟩ := g2 hg
    exact ⟨a', .tail n l regs o f args a a' hc ho hol ht g3, g4⟩
  | call n' l' regs' o l1 f args _ _ hc' ho hol ht hr =>
    rw [hc] at hc'
    obtain ⟨rfl, rfl, rfl⟩ : n = n' ∧ l = l' ∧ regs = regs' := by simpa using hc'
    obtain ⟨mem', hm1, hm2, hu⟩ := key o ho hol
    rw [hu, ht]
    have hp : Pre strict { c with mem := mem', w := o.w } { a with w := o.w } c.ctx.bp segs' :=
      hpre.congr rfl rfl rfl rfl rfl rfl rfl rfl rfl rfl h.res rfl hm1
    have hp2 : Pre strict (saveCont { c with mem := mem', w := o.w } (.user n) l1 c.ctx.bp)
        { a with w := o.w, stack := .code (.user n) l1 o.regs :: a.stack } c.ctx.sp (c.begin_ :: r) := by
      refine ⟨?_, Or.inl ⟨hd.symm, ?_⟩, Nat.le_trans hi1 hi2, hi3, hp.mem.1 |> fun _ => ⟨hp.mem.seg, hp.mem.end_eq,
        hp.mem.nodup, hp.mem.heap, hp.mem.apart⟩, ?_, h.res, rfl⟩
      · have := Stk.code c.begin_ r ⟨some (.user n), l1, c.ctx.bp, c.ctx.sp⟩ c.callstack (.user n) a.stack c.trystack c.cstack
          segs' (mem := mem') (strict := strict) hin rfl (by rw [← hd]; exact hp.under) hp.stk
        rw [hm2] at this
        exact this
      · intro f' hf'
        simp [saveCont] at hf'
        subst hf'
        simp [top]
      · exact hp.conts.congr rfl (fun s h _ => h) (fun s _ h => h) (fun _ _ _ _ _ _ => rfl)
    obtain ⟨c', g1, g2⟩ := callN_rel hmal hp2 hr
    refine ⟨c', g1, fun hg => ?_⟩
    obtain ⟨a', g3, g4⟩ := g2 hg
    exact ⟨a', .call n l regs o l1 f args a a' hc ho hol ht g3, g4⟩
  | curry _ _ _ _ _ _ _ _ _ _ _ _ _ hc' => rw [hc] at hc'; simp at hc'
  | try' _ _ _ _ _ _ hc' => rw [hc] at hc'; simp at hc'
  | handler _ _ _ hc' => rw [hc] at hc'; simp at hc'
  | throw _ _ _ _ _ _ _ _ _ hc' => rw [hc] at hc'; simp at hc'
  | resume _ _ _ _ _ _ _ _ _ _ hc' => rw [hc] at hc'; simp at hc'
  | apply _ _ _ _ _ _ _ _ hc' => rw [hc] at hc'; simp at hc'
  | rest _ _ _ hc' => rw [hc] at hc'; simp at hc'

theorem curry_rel {malloc : List Nat → Nat} {sem : Sem W} {strict : Prop} {c : Cora W} {a : ASt W}
    (h : Rel strict c a) {l nf req : Nat} {g : Val} {got args junk junk' : List Val} {code : Code} {gn gr : Nat}
    {gd : List Val} (hc : a.cur = .code .curry l (.native .curry nf req (g :: got) :: args ++ junk))
    (hargs : args.length = req) (hg : g = .native code gn gr gd)
    (hlen : (g :: got ++ args ++ junk').length = (Val.native .curry nf req (g :: got) :: args ++ junk).length) :
    ∃ c', step malloc sem c = some c' ∧ ∃ a', AStep sem a a' ∧ Rel strict c' a' := by
  obtain ⟨segs', hin, hfn, hlab, hregs, hcr, hpre⟩ := h.code_inv hc
  have hi1 := hin.1
  have hi2 := hin.2.1
  have hi3 := hin.2.2
  obtain ⟨r, hd⟩ := h.mem.seg
  have hn : (Val.native .curry nf req (g :: got) :: args ++ junk).length = c.ctx.sp - c.ctx.bp := by
    rw [hregs, readMem_length]
  have hb : c.begin_ ∈ c.heap := h.mem.heap _ (by rw [hd]; simp)
  simp at hlen hn
  have hst1 := store_ok h.mem (s := c.begin_) (a := c.ctx.bp + (got.length + 1)) (vs := args) hb (by omega) (by omega)
  have hm1 : ∀ mem1, Mem { c with mem := mem1 } := fun mem1 => ⟨⟨r, hd⟩, h.mem.end_eq, h.mem.nodup, h.mem.heap, h.mem.apart⟩
  generalize hmm1 : (fun p => if c.ctx.bp + (got.length + 1) ≤ p ∧ p < c.ctx.bp + (got.length + 1) + args.length
      then args.getD (p - (c.ctx.bp + (got.length + 1))) Val.nil else c.mem p) = mem1 at hst1
  have hst2 := store_ok (hm1 mem1) (s := c.begin_) (a := c.ctx.bp) (vs := g :: got) hb hi1 (by simp; omega)
  generalize hmm2 : (fun p => if c.ctx.bp ≤ p ∧ p < c.ctx.bp + (g :: got).length
      then (g :: got).getD (p - c.ctx.bp) Val.nil else mem1 p) = mem2 at hst2
  have hread : ∃ jj, readMem mem2 c.ctx.bp (c.ctx.sp - c.ctx.bp) = g :: got ++ args ++ jj := by
    have e : c.ctx.sp - c.ctx.bp = (g :: got).length + (args.length + (c.ctx.sp - c.ctx.bp - (got.length + 1 + args.length))) := by
      simp; omega
    rw [e, readMem_split, readMem_split]
    have e1 : readMem mem2 c.ctx.bp (g :: got).length = g :: got := by rw [← hmm2]; exact readMem_store
    have e2 : readMem mem2 (c.ctx.bp + (g :: got).length) args.length = args := by
      have : readMem mem2 (c.ctx.bp + (g :: got).length) args.length =
          readMem mem1 (c.ctx.bp + (g :: got).length) args.length := by
        apply readMem_congr
        intro p hp1 hp2
        rw [← hmm2]
        show (if _ then _ else _) = _
        rw [if_neg]
        omega
      rw [this, ← hmm1]
      exact readMem_store
    rw [e1, e2]
    exact ⟨_, by simp; rfl⟩
  obtain ⟨jj, hread⟩ := hread
  have hp : Pre strict { c with mem := mem2, ctx := { c.ctx with fn := some code, label := 0 } } a c.ctx.bp segs' := by
    refine hpre.congr rfl rfl rfl rfl rfl rfl rfl rfl rfl rfl h.res h.w ?_
    intro p hp
    show mem2 p = c.mem p
    rw [← hmm2]
    show (if _ then _ else _) = _
    rw [if_neg (by simp; omega), ← hmm1]
    show (if _ then _ else _) = _
    rw [if_neg (by omega)]
  refine ⟨{ c with mem := mem2, ctx := { c.ctx with fn := some code, label := 0 } }, ?_,
    { a with cur := .code code 0 (g :: got ++ args ++ jj) },
    .curry l nf req g got args junk jj code gn gr gd a hc hargs hg ?_, ?_, hp.mem, hp.conts, h.res, h.w⟩
  · have hstep : step malloc sem c = callCurry c := by unfold step; rw [hfn]
    rw [hstep]
    unfold callCurry
    rw [hcr]
    simp only [Option.bind_eq_bind, Option.bind_some, List.cons_append, hg]
    rw [if_pos (by simp; omega)]
    have ht : (args ++ junk).take req = args := by rw [← hargs]; simp
    rw [ht, hst1]
    simp only [Option.bind_some]
    rw [← hg, hst2]
    rfl
  · have := congrArg List.length hread
    rw [readMem_length] at this
    rw [← this]
    simp
    omega
  · have := Stk.code c.begin_ r { c.ctx with fn := some code, label := 0 } c.callstack code a.stack c.trystack c.cstack
      segs' (mem := mem2) (strict := strict) hin rfl (by rw [← hd]; exact hp.under) hp.stk
    rw [show readMem mem2 ({ c.ctx with fn := some code, label := 0 } : Frame).bp
      (({ c.ctx with fn := some code, label := 0 } : Frame).sp - ({ c.ctx with fn := some code, label := 0 } : Frame).bp) = _ from hread,
      ← hd] at this
    exact this

/-- going on at the stack pointer of the current frame -/
theorem Pre.at_sp {strict : Prop} {c : Cora W} {a : ASt W} {segs' : List Nat} (h : Pre strict c a c.ctx.bp segs')
    (hin : InSeg c.begin_ c.ctx) (hs : ¬ strict) : Pre strict c a c.ctx.sp segs' := by
  have := hin.2.1
  have := hin.2.2
  refine ⟨h.stk, ?_, Nat.le_trans h.lo1 hin.2.1, hin.2.2, h.mem, h.conts, h.res, h.w⟩
  rcases h.under with ⟨hu, ht⟩ | ⟨b, hu, hst⟩
  · exact Or.inl ⟨hu, fun f hf => Nat.le_trans (ht f hf) hin.2.1⟩
  · exact Or.inr ⟨b, hu, fun h => absurd h hs⟩

theorem listElems_of {v : Val} {l : List Val} (h : IsList v l) : listElems v = some l := by
  induction h with
  | nil => rfl
  | cons a b l _ ih => simp [listElems, ih]

theorem apply_rel {malloc : List Nat → Nat} (hmal : Fresh malloc) {sem : Sem W} {strict : Prop} (hns : ¬ strict)
    {c : Cora W} {a a0 : ASt W} (h : Rel strict c a) {self f l : Val} {args junk : List Val} {lbl : Nat}
    (hc : a.cur = .code .apply lbl (self :: f :: l :: junk)) (hl : IsList l args) (he : Enter f args a a0) :
    ∃ c', step malloc sem c = some c' ∧ (Good strict c' → ∃ a', AStep sem a a' ∧ Rel strict c' a') := by
  obtain ⟨segs', hin, hfn, hlab, hregs, hcr, hpre⟩ := h.code_inv hc
  obtain ⟨c', g1, g2⟩ := enter_rel hmal (hpre.at_sp hin hns) he
  refine ⟨c', ?_, fun hg => ?_⟩
  · have hstep : step malloc sem c = builtinApply malloc c := by unfold step; rw [hfn]
    rw [hstep]
    unfold builtinApply
    cases he with
    | mk code nf req d _ _ hf hargs =>
      subst hf
      simp only [hcr, listElems_of hl, Option.bind_eq_bind, Option.bind_some]
      rw [if_neg (by omega)]
      exact g1
  · obtain ⟨a', x1, x2⟩ := g2 hg
    exact ⟨a', .apply self f l args junk lbl a a' hc hl x1, x2⟩

theorem rest_rel {malloc : List Nat → Nat} (hmal : Fresh malloc) {sem : Sem W} {strict : Prop} (hns : ¬ strict)
    {c : Cora W} {a a0 : ASt W} (h : Rel strict c a) {args : List Val} (hc : a.cur = .rest args)
    (he : Applies a.res args a a0) :
    ∃ c', step malloc sem c = some c' ∧ (Good strict c' → ∃ a', AStep sem a a' ∧ Rel strict c' a') := by
  obtain ⟨hstk, hm, hconts, hres, hw⟩ := h
  obtain ⟨r, hd⟩ := hm.seg
  obtain ⟨b, r', f, fs', segs', cs', e1, e2, h1, h2, h3, h4, h5, h6⟩ := hstk.rest_inv (by rw [hc])
  injection e2 with e21 e22
  subst e21 e22
  have hb : b = c.begin_ := by rw [hd] at e1; injection e1 with x _; exact x.symm
  subst hb
  have hp : Pre strict { c with cstack := cs' } a c.ctx.bp segs' :=
    ⟨h6, h5, h1.1, Nat.lt_of_le_of_lt h1.2.1 h1.2.2, ⟨⟨r, hd⟩, hm.end_eq, hm.nodup, hm.heap, hm.apart⟩,
      hconts.congr rfl (fun s h _ => h) (fun s _ h => h) (fun _ _ _ _ _ _ => rfl), hres, hw⟩
  obtain ⟨c', g1, g2⟩ := coraCall_rel hmal (hp.at_sp h1 hns) h4 he
  refine ⟨c', ?_, fun hg => ?_⟩
  · unfold step
    rw [h2, h3]
    rw [hres] at g1
    exact g1
  · obtain ⟨a', x1, x2⟩ := g2 hg
    exact ⟨a', .rest args a a' hc x1, x2⟩

theorem handler_rel {malloc : List Nat → Nat} {sem : Sem W} {strict : Prop} {c : Cora W} {a : ASt W}
    (h : Rel strict c a) {hh : Val} (hc : a.cur = .handler hh) :
    ∃ c', step malloc sem c = some c' ∧ ∃ a', AStep sem a a' ∧ Rel strict c' a' := by
  obtain ⟨hstk, hm, hconts, hres, hw⟩ := h
  obtain ⟨b, r, fs', ms', e1, e2, e3, h1, h2⟩ := hstk.handler_inv (by rw [hc])
  injection e2 with e21 e22
  subst e22
  obtain ⟨r', hd⟩ := hm.seg
  have hb : b = c.begin_ := by rw [hd] at e1; injection e1 with x _; exact x.symm
  subst hb
  have hp : Pre strict { c with trystack := ms' } a c.begin_ r :=
    ⟨h2, Or.inr ⟨c.begin_, e1, fun _ => rfl⟩, Nat.le_refl _, by show c.begin_ < c.begin_ + 256; omega, ⟨⟨r', hd⟩, hm.end_eq, hm.nodup, hm.heap, hm.apart⟩,
      hconts.congr rfl (fun s h _ => h) (fun s _ h => h) (fun _ _ _ _ _ _ => rfl), hres, hw⟩
  obtain ⟨c', a', g1, g2, g3⟩ := return_ok hp a.res
  refine ⟨c', ?_, a', .handler hh a a' hc g2, g3⟩
  unfold step
  rw [e21]
  simp only []
  unfold builtinTryCatch
  rw [e21, e3]
  simp only []
  rw [if_neg (by omega), ← hres]
  exact g1

theorem throw_rel {malloc : List Nat → Nat} (hmal : Fresh malloc) {sem : Sem W} {strict : Prop}
    {c : Cora W} {a a0 : ASt W} (h : Rel strict c a) {self v hh : Val} {junk : List Val} {pre post : List AFrame}
    {lbl : Nat} (hc : a.cur = .code .throw lbl (self :: v :: junk)) (hst : a.stack = pre ++ .handler hh :: post)
    (hcode : ∀ f ∈ pre, f.isCode)
    (he : Applies hh [v, .native .resume 2 1 [.cont a.conts.length]]
        { a with stack := post, conts := a.conts ++ [some (pre, hh)] } a0) :
    ∃ c', step malloc sem c = some c' ∧ (Good strict c' → ∃ a', AStep sem a a' ∧ Rel strict c' a') := by
  obtain ⟨segs', hin, hfn, hlab, hregs, hcr, hpre⟩ := h.code_inv hc
  have hstk := hpre.stk
  rw [hst] at hstk
  obtain ⟨f1, f2, ms', fsegs, rest, t, g1, g2, g3, g4, g5, g6, g7, g8⟩ := hstk.split pre hcode
  have hm := h.mem
  obtain ⟨r, hd⟩ := hm.seg
  obtain ⟨csegs, hcs, hext⟩ : ∃ csegs, c.data = csegs ++ rest ∧ Ext csegs fsegs := by
    rcases hpre.under with ⟨hu, _⟩ | ⟨b, hu, _⟩
    · exact ⟨fsegs, by rw [← hu, g3], Or.inl rfl⟩
    · exact ⟨b :: fsegs, by rw [hu, g3]; rfl, Or.inr ⟨b, rfl⟩⟩
  have hsubc : ∀ s ∈ csegs, s ∈ c.data := fun s hs => by rw [hcs]; simp [hs]
  have hsubr : ∀ s ∈ rest, s ∈ c.data := fun s hs => by rw [hcs]; simp [hs]
  have hnd := hm.nodup
  rw [hcs, List.nodup_append] at hnd
  obtain ⟨hnd1, hnd2, hnd3⟩ := hnd
  cases f2 with
  | nil => exact absurd rfl g5.ne
  | cons before fs2 =>
    obtain ⟨b, rr, k1, k2⟩ := g5.head
    subst k1
    have ht : t ∈ c.data := by
      apply hsubc
      rcases hext with hx | ⟨b', hx⟩
      · rw [hx]; exact g8
      · rw [hx]; simp [g8]
    have hp : Pre strict { c with
          trystack := ms', conts := c.conts ++ [(f1, csegs)], data := b :: rr, begin_ := b, end_ := b + 256,
          callstack := before :: fs2, ctx := { c.ctx with bp := before.bp, sp := before.sp } }
        { a with stack := post, conts := a.conts ++ [some (pre, hh)] } before.sp (b :: rr) := by
      refine ⟨g5, Or.inl ⟨rfl, ?_⟩, Nat.le_trans k2.1 k2.2.1, k2.2.2, ⟨⟨rr, rfl⟩, rfl, hnd2, fun s hs => hm.heap s (hsubr s hs),
        hm.apart⟩, ⟨?_, ?_, ?_⟩, h.res, h.w⟩
      · intro f hf
        have hf' : before = f := by simpa using hf
        rw [← hf']
        exact top_le k2
      · simp [h.conts.len]
      · intro id pre' h' hid
        by_cases hlt : id < a.conts.length
        · rw [List.getElem?_append_left hlt] at hid
          obtain ⟨k, k1, k2, k3, k4⟩ := h.conts.frag id pre' h' hid
          refine ⟨k, ?_, k2, k3, fun s hs => ⟨(k4 s hs).1, fun hin => (k4 s hs).2 (hsubr s hin)⟩⟩
          show (c.conts ++ [(f1, csegs)])[id]? = some k
          rw [List.getElem?_append_left (by rw [h.conts.len]; exact hlt)]
          exact k1
        · have hlen : id = a.conts.length := by
            rw [List.getElem?_append_right (by omega)] at hid
            have := (List.getElem?_eq_some_iff.mp hid).1
            simp at this
            omega
          subst hlen
          simp at hid
          obtain ⟨rfl, rfl⟩ := hid
          refine ⟨(f1, csegs), ?_, ⟨fsegs, hext, g4⟩, hnd1, fun s hs => ⟨hm.heap s (hsubc s hs), fun hin => hnd3 s hs s hin rfl⟩⟩
          show (c.conts ++ [(f1, csegs)])[a.conts.length]? = _
          rw [← h.conts.len]
          simp
      · intro id id' p p' k k' hne h1 h2 h3 h4
        have h3' : (c.conts ++ [(f1, csegs)])[id]? = some k := h3
        have h4' : (c.conts ++ [(f1, csegs)])[id']? = some k' := h4
        have hl := h.conts.len
        by_cases hlt : id < a.conts.length
        · rw [List.getElem?_append_left hlt] at h1
          rw [List.getElem?_append_left (by rw [hl]; exact hlt)] at h3'
          by_cases hlt' : id' < a.conts.length
          · rw [List.getElem?_append_left hlt'] at h2
            rw [List.getElem?_append_left (by rw [hl]; exact hlt')] at h4'
            exact h.conts.apart id id' p p' k k' hne h1 h2 h3' h4'
          · rw [List.getElem?_append_right (by omega)] at h4'
            have hx := (List.getElem?_eq_some_iff.mp h4').2
            simp at hx
            intro s hs hs'
            rw [← hx] at hs'
            obtain ⟨k0, y1, y2, y3, y4⟩ := h.conts.frag id p.1 p.2 h1
            rw [h3'] at y1
            injection y1 with y1
            subst y1
            exact (y4 s hs).2 (hsubc s hs')
        · rw [List.getElem?_append_right (by omega)] at h3'
          have hx := (List.getElem?_eq_some_iff.mp h3').2
          simp at hx
          have hid : id = a.conts.length := by
            have := (List.getElem?_eq_some_iff.mp h1).1
            simp at this
            omega
          have hlt' : id' < a.conts.length := by
            have := (List.getElem?_eq_some_iff.mp h2).1
            simp at this
            omega
          rw [List.getElem?_append_left hlt'] at h2
          rw [List.getElem?_append_left (by rw [hl]; exact hlt')] at h4'
          intro s hs hs'
          rw [← hx] at hs
          obtain ⟨k0, y1, y2, y3, y4⟩ := h.conts.frag id' p'.1 p'.2 h2
          rw [h4'] at y1
          injection y1 with y1
          subst y1
          exact (y4 s hs').2 (hsubc s hs)
    obtain ⟨c', x1, x2⟩ := coraCall14_rel hmal hp (by simp) he
    refine ⟨c', ?_, fun hg => ?_⟩
    · have hstep : step malloc sem c = builtinThrow malloc c := by unfold step; rw [hfn]
      rw [hstep]
      unfold builtinThrow
      simp only [hcr, g2, Option.bind_eq_bind, Option.bind_some]
      have e1 : c.callstack.length - (before :: fs2).length = f1.length := by rw [g1]; simp
      have e2 : c.data.length - (b :: rr).length = csegs.length := by rw [hcs]; simp
      have e3 : c.callstack.take f1.length = f1 := by rw [g1]; simp
      have e4 : c.callstack.drop f1.length = before :: fs2 := by rw [g1]; simp
      have e5 : c.data.take csegs.length = csegs := by rw [hcs]; simp
      have e6 : c.data.drop csegs.length = b :: rr := by rw [hcs]; simp
      rw [e1, e2, e3, e4, e5, e6, g6]
      simp only [Option.bind_some]
      rw [if_pos (hm.valid (hm.heap t ht) (by omega) (by omega)), g7, h.conts.len]
      exact x1
    · obtain ⟨a', y1, y2⟩ := x2 hg
      exact ⟨a', .throw self v junk pre post hh lbl a a' hc hst hcode y1, y2⟩

/-- the activations below are not near the segment above the one above them -/
theorem near_false {strict : Prop} {mem : Nat → Val} {t b : Nat} {segs' : List Nat} {fs : List Frame} {as : List AFrame}
    {ms : List Mark} {cs : List (List Val)} (hs : Stk strict mem segs' fs as ms cs)
    (h1 : ∀ s ∈ segs', Apart t s) (h2 : ∀ s ∈ segs', Apart b s) (hn : Near (t :: b :: segs') fs) : False := by
  cases fs with
  | nil => exact absurd rfl hs.ne
  | cons f fs =>
    obtain ⟨b2, r2, k1, k2, k3, k4⟩ := hs.head
    have hb2 : b2 ∈ segs' := by rw [k1]; simp
    rcases hn with hn | ⟨x, y, he, hn⟩
    · obtain ⟨b3, r3, j1, j2, j3⟩ := hn.head
      injection j1 with j11 _
      subst j11
      exact not_both (h1 b2 hb2) j2 j3 (Nat.le_trans k2 k3) k4
    · injection he with he1 he2
      subst he2
      obtain ⟨b3, r3, j1, j2, j3⟩ := hn.head
      injection j1 with j11 _
      subst j11
      exact not_both (h2 b2 hb2) j2 j3 (Nat.le_trans k2 k3) k4

/-- the state in which `try` calls its thunk, its frame in a new segment at `T` -/
def tryState (c : Cora W) (T : Nat) (mem' : Nat → Val) : Cora W :=
  { c with
    heap := T :: c.heap, data := T :: c.data, begin_ := T, end_ := T + 256, mem := mem',
    ctx := { c.ctx with bp := T, sp := T + 3 },
    trystack := ⟨c.callstack.length, c.data.length⟩ :: c.trystack,
    callstack := ⟨some .tryCatch, 1, T, T + 3⟩ :: c.callstack }

theorem try_rel {malloc : List Nat → Nat} (hmal : Fresh malloc) {sem : Sem W} {strict : Prop} (hns : ¬ strict)
    {c : Cora W} {a a0 : ASt W} (h : Rel strict c a) {self thunk hh : Val} {junk : List Val}
    (hc : a.cur = .code .tryCatch 0 (self :: thunk :: hh :: junk))
    (he : Applies thunk [] { a with stack := .handler hh :: a.stack } a0) :
    ∃ c', step malloc sem c = some c' ∧ (Good strict c' → ∃ a', AStep sem a a' ∧ Rel strict c' a') := by
  obtain ⟨segs', hin, hfn, hlab, hregs, hcr, hpre⟩ := h.code_inv hc
  have hm := h.mem
  obtain ⟨r, hd⟩ := hm.seg
  have hap : ∀ s ∈ c.heap, Apart (malloc c.heap) s := hmal c.heap
  generalize hT : malloc c.heap = T at hap
  -- the state in which the thunk is called
  obtain ⟨mem', hm1, hm2, hm3⟩ : ∃ mem' : Nat → Val, (∀ p, p < T ∨ T + 3 ≤ p → mem' p = c.mem p) ∧ mem' (T + 2) = hh ∧
      step malloc sem c = coraCall0 malloc
        (tryState c T mem') thunk := by
    refine ⟨fun p => if T ≤ p ∧ p < T + [self, thunk, hh].length then [self, thunk, hh].getD (p - T) .nil else c.mem p,
      ?_, ?_, ?_⟩
    · intro p hp
      show (if _ then _ else _) = _
      rw [if_neg]
      simp
      omega
    · simp
    · have hstep : step malloc sem c = builtinTryCatch malloc c := by unfold step; rw [hfn]
      rw [hstep]
      unfold builtinTryCatch
      rw [if_pos hlab]
      have hal : stackAllocSlowPath malloc c 3 = some { segmentStackAlloc malloc c with
          ctx := { c.ctx with bp := T, sp := T + 3 } } := by
        unfold stackAllocSlowPath; rw [if_pos (by omega), ← hT]; rfl
      have hmem1 : Mem { segmentStackAlloc malloc c with ctx := { c.ctx with bp := T, sp := T + 3 } } := by
        refine ⟨⟨c.data, rfl⟩, rfl, ?_, ?_, ?_⟩
        · show (malloc c.heap :: c.data).Nodup
          rw [hT, List.nodup_cons]
          refine ⟨fun hin => ?_, hm.nodup⟩
          have := hap _ (hm.heap _ hin)
          unfold Apart at this
          omega
        · intro s hs
          show s ∈ malloc c.heap :: c.heap
          rcases List.mem_cons.mp hs with e | hs
          · rw [e]; simp
          · exact List.mem_cons_of_mem _ (hm.heap s hs)
        · show (malloc c.heap :: c.heap).Pairwise Apart
          rw [hT]
          exact List.pairwise_cons.mpr ⟨hap, hm.apart⟩
      have hst := store_ok hmem1 (s := T) (a := T) (vs := [self, thunk, hh])
        (by show _ ∈ malloc c.heap :: c.heap; rw [hT]; simp) (Nat.le_refl _) (by simp)
      simp only [hcr, hal, hst, Option.bind_eq_bind, Option.bind_some, List.length_cons, List.length_nil]
      congr 1
      simp only [tryState, segmentStackAlloc, hT, List.length_cons, Nat.add_sub_cancel]
  rw [hm3]
  have hmemT : Mem (tryState c T mem') := by
    refine ⟨⟨c.data, rfl⟩, rfl, ?_, ?_, ?_⟩
    · show (T :: c.data).Nodup
      rw [List.nodup_cons]
      refine ⟨fun hin => ?_, hm.nodup⟩
      have := hap _ (hm.heap _ hin)
      unfold Apart at this
      omega
    · intro s hs
      show s ∈ T :: c.heap
      rcases List.mem_cons.mp hs with e | hs
      · rw [e]; simp
      · exact List.mem_cons_of_mem _ (hm.heap s hs)
    · exact List.pairwise_cons.mpr ⟨hap, hm.apart⟩
  by_cases hsd : segs' = c.data
  · subst hsd
    have hp : Pre strict (tryState c T mem')
        { a with stack := .handler hh :: a.stack } (T + 3) (T :: c.data) := by
      refine ⟨?_, Or.inl ⟨rfl, ?_⟩, Nat.le_add_right _ _, by show T + 3 < T + 256; omega, hmemT, ?_, h.res, h.w⟩
      · refine .handler T c.data c.callstack hh a.stack c.trystack c.cstack hm2 ?_
        refine hpre.stk.mem_congr_all hm.nodup ?_
        intro s hs p hp1 hp2
        apply hm1
        have := hap s (hm.heap s hs)
        unfold Apart at this
        omega
      · intro f hf
        simp [tryState] at hf
        rw [← hf]
        simp [top]
      · refine h.conts.congr rfl (fun s hs _ => List.mem_cons_of_mem _ hs) ?_ ?_
        · intro s hs hsd hin
          rcases List.mem_cons.mp hin with e | hin
          · have := hap s hs
            unfold Apart at this
            omega
          · exact hsd hin
        · intro s hs hsd p hp1 hp2
          apply hm1
          have := hap s hs
          unfold Apart at this
          omega
    obtain ⟨c', g1, g2⟩ := coraCall0_rel hmal hp he
    refine ⟨c', g1, fun hg => ?_⟩
    obtain ⟨a', x1, x2⟩ := g2 hg
    exact ⟨a', .try' self thunk hh junk a a' hc x1, x2⟩
  · obtain ⟨b, hu⟩ : ∃ b, c.data = b :: segs' := by
      rcases hpre.under with ⟨hu, _⟩ | ⟨b, hu, _⟩
      · exact absurd hu hsd
      · exact ⟨b, hu⟩
    have hnear : ¬ Near (T :: c.data) c.callstack := by
      rw [hu]
      refine near_false hpre.stk ?_ ?_
      · exact fun s hs => hap s (hm.heap s (by rw [hu]; simp [hs]))
      · intro s hs
        refine hm.apart_data (by rw [hu]; simp) (by rw [hu]; simp [hs]) ?_
        intro he
        have := hm.nodup
        rw [hu, List.nodup_cons] at this
        exact this.1 (he ▸ hs)
    obtain ⟨code, nf, req, d, hf⟩ := applies_native he
    subst hf
    unfold coraCall0
    simp only []
    by_cases hreq : req = 0
    · have hE := applies_exact he (by simp [hreq])
      rw [if_neg (by omega)]
      cases hE with
      | mk _ _ _ _ _ _ hf hargs hlen hnf =>
        simp at hf
        obtain ⟨rfl, rfl, rfl, rfl⟩ := hf
        simp at hlen
        obtain ⟨c', x, e1, e2, e3, e4, e5, e6, e7, e8, e9, e10, e11, e12, e13⟩ :=
          enter_desc (code := code) (req := req) (d := d) (args := []) hmal hmemT (by show T ≤ T + 3; omega)
            (by show T + 3 < T + 256; omega) (by simp; omega) hnf
        refine ⟨c', e1, fun hg => ?_⟩
        exfalso
        rcases hg with hg | hg
        · exact hns hg
        · have hn : Near c'.data (⟨some .tryCatch, 1, T, T + 3⟩ :: c.callstack) := by
            have := hg.near
            rw [e2] at this
            exact this
          rcases e11 with ⟨j1, _⟩ | ⟨j1, j2, j3, j4, _⟩
          · have j1' : c'.data = T :: c.data := j1
            rw [j1'] at hn
            rcases hn with hn | ⟨b', r', hb, hn⟩
            · exact hnear hn.near
            · injection hb with hb1 hb2
              obtain ⟨b3, r3, q1, q2, q3⟩ := hn.head
              refine not_both (hap b3 (hm.heap _ (by rw [hb2, q1]; simp))) ?_ ?_ q2 q3 <;> simp only [] <;> omega
          · have j1' : c'.data = x :: T :: c.data := j1
            rw [j1'] at hn
            rcases hn with hn | ⟨b', r', hb, hn⟩
            · obtain ⟨b3, r3, q1, q2, q3⟩ := hn.head
              injection q1 with q11 q12
              subst q11
              refine not_both (j4 T (by simp [tryState])) q2 q3 ?_ ?_ <;> simp only [] <;> omega
            · injection hb with hb1 hb2
              rw [← hb2] at hn
              exact hnear hn.near
    · rw [if_pos hreq]
      refine ⟨{ tryState c T mem' with
                ctx := ⟨some .tryCatch, 1, T, T + 3⟩, res := .native code nf req d,
                callstack := c.callstack }, ?_, fun hg => ?_⟩
      · unfold coraReturn tryState
        simp only []
        rw [if_neg (by omega)]
      · exfalso
        rcases hg with hg | hg
        · exact hns hg
        · exact hnear hg.near

/-- what `coraReturn` does -/
theorem return_desc {c : Cora W} (hm : Mem c) {f : Frame} {fs : List Frame} (hcs : c.callstack = f :: fs) {b : Nat}
    {r : List Nat} (hext : Ext c.data (b :: r)) (hin : InSeg b f) (v : Val) :
    ∃ c', coraReturn c v = some c' ∧ c'.ctx = f ∧ c'.callstack = fs ∧ c'.data = b :: r := by
  have e21 := hin.1
  have e22 := hin.2.1
  have e23 := hin.2.2
  obtain ⟨r0, hd⟩ := hm.seg
  rcases hext with hx | ⟨b0, hb0⟩
  · have hb : b = c.begin_ := by rw [hx] at hd; injection hd
    refine ⟨{ c with res := v, ctx := f, callstack := fs }, ?_, rfl, rfl, hx⟩
    unfold coraReturn
    rw [hcs]
    simp only []
    rw [if_neg]
    rw [hm.end_eq]
    omega
  · have hbb : b0 = c.begin_ := by rw [hd] at hb0; injection hb0 with x _; exact x.symm
    subst hbb
    have hnd := hm.nodup
    rw [hb0, List.nodup_cons] at hnd
    have hbne : c.begin_ ≠ b := fun he => hnd.1 (by rw [he]; simp)
    have hap := hm.apart_data (by rw [hb0]; simp) (by rw [hb0]; simp) hbne
    have hend := hm.end_eq
    refine ⟨{ c with
              res := v, ctx := f, callstack := fs, heap := c.heap.erase c.begin_, data := b :: r,
              begin_ := b, end_ := b + 256 }, ?_, rfl, rfl, rfl⟩
    unfold coraReturn
    rw [hcs]
    simp only []
    rw [if_pos]
    · unfold coraReturnSlowPath
      rw [hb0]
      simp only [if_true]
      rw [if_pos ⟨by omega, e23⟩]
    · unfold Apart at hap
      omega

theorem Frag.head {strict : Prop} {mem : Nat → Val} {segs f fs as h} (hf : Frag strict mem segs (f :: fs) as h) :
    ∃ b r, segs = b :: r ∧ InSeg b f := by
  generalize he : f :: fs = l at hf
  cases hf with
  | base t h h1 => injection he with e1 e2; subst e1; exact ⟨t, [], rfl, by simp [InSeg]⟩
  | code b r f' fs' c as h segs' h1 h2 h3 h4 => injection he with e1 e2; subst e1; exact ⟨b, r, rfl, h1⟩

/-- going down a captured piece of stack -/
theorem Frag.near {strict : Prop} {mem : Nat → Val} {fsegs f1 pre h} (hf : Frag strict mem fsegs f1 pre h)
    {rest : List Nat} {f2 : List Frame} (hap : (fsegs ++ rest).Pairwise Apart) (hs : Spans (fsegs ++ rest) (f1 ++ f2)) :
    ∃ t, t ∈ fsegs ∧ Near (t :: rest) f2 := by
  induction hf with
  | base t h h1 => exact ⟨t, by simp, hs.near⟩
  | code b r f fs c as h segs' h1 h2 h3 h4 ih =>
    have hn := hs.near
    cases fs with
    | nil => exact absurd rfl h4.ne
    | cons f' fs =>
      obtain ⟨b', r', k1, k2⟩ := h4.head
      have hq1 := k2.1
      have hq2 := k2.2.1
      have hq3 := k2.2.2
      rw [List.cons_append, List.pairwise_cons] at hap
      rcases h3 with ⟨h3, _⟩ | ⟨b2, h3, _⟩
      · subst h3
        rcases hn with hn | ⟨x, y, hx, hn⟩
        · obtain ⟨t, t1, t2⟩ := ih (by rw [List.cons_append, List.pairwise_cons]; exact hap) hn
          exact ⟨t, t1, t2⟩
        · exfalso
          rw [List.cons_append] at hx
          injection hx with hx1 hx2
          obtain ⟨b3, r3, j1, j2, j3⟩ := hn.head
          injection k1 with k11 k12
          subst k11
          exact not_both (hap.1 b3 (by rw [hx2, j1]; simp)) (Nat.le_trans k2.1 k2.2.1) k2.2.2 j2 j3
      · injection h3 with h31 h32
        subst h32
        rcases hn with hn | ⟨x, y, hx, hn⟩
        · exfalso
          obtain ⟨b3, r3, j1, j2, j3⟩ := hn.head
          rw [List.cons_append] at j1
          injection j1 with j11 j12
          subst j11
          exact not_both (hap.1 b' (by rw [k1]; simp)) j2 j3 (Nat.le_trans k2.1 k2.2.1) k2.2.2
        · rw [List.cons_append] at hx
          injection hx with hx1 hx2
          obtain ⟨t, t1, t2⟩ := ih hap.2 (by rw [hx2]; exact hn)
          exact ⟨t, by simp [t1], t2⟩

theorem pairwise_apart {h l : List Nat} (hp : h.Pairwise Apart) (hn : l.Nodup) (hs : ∀ s ∈ l, s ∈ h) :
    l.Pairwise Apart := by
  induction l with
  | nil => exact List.Pairwise.nil
  | cons x l ih =>
    rw [List.nodup_cons] at hn
    rw [List.pairwise_cons]
    refine ⟨fun s hsl => ?_, ih hn.2 (fun s hsl => hs s (by simp [hsl]))⟩
    exact apart_of_mem hp (hs x (by simp)) (hs s (by simp [hsl])) (fun he => hn.1 (he ▸ hsl))

theorem resume_rel {malloc : List Nat → Nat} {sem : Sem W} {strict : Prop} (hns : ¬ strict)
    {c : Cora W} {a : ASt W} (h : Rel strict c a) {nf nr id lbl : Nat} {v hh : Val} {junk : List Val} {pre : List AFrame}
    (hc : a.cur = .code .resume lbl (.native .resume nf nr [.cont id] :: v :: junk))
    (hid : a.conts[id]? = some (some (pre, hh))) :
    ∃ c', step malloc sem c = some c' ∧ (Good strict c' → ∃ a', AStep sem a a' ∧ Rel strict c' a') := by
  obtain ⟨segs', hin, hfn, hlab, hregs, hcr, hpre⟩ := h.code_inv hc
  have hm := h.mem
  obtain ⟨r, hd⟩ := hm.seg
  obtain ⟨k, k1, ⟨fsegs, k2, k3⟩, k4, k5⟩ := h.conts.frag id pre hh hid
  obtain ⟨b1, r1, hb1⟩ : ∃ b r, k.2 ++ c.data = b :: r := by
    cases hx : k.2 ++ c.data with
    | nil => rw [hd] at hx; simp at hx
    | cons b r => exact ⟨b, r, rfl⟩
  have hstep : step malloc sem c = coraReturn { c with
      trystack := ⟨c.callstack.length, c.data.length⟩ :: c.trystack, callstack := k.1 ++ c.callstack,
      data := k.2 ++ c.data, begin_ := b1, end_ := b1 + 256 } v := by
    have hstep : step malloc sem c = continuationAsClosure c := by unfold step; rw [hfn]
    rw [hstep]
    unfold continuationAsClosure
    simp only [hcr, k1, Option.bind_eq_bind, Option.bind_some]
    rw [hb1]
  rw [hstep]
  have hnd : (k.2 ++ c.data).Nodup := by
    rw [List.nodup_append]
    refine ⟨k4, hm.nodup, ?_⟩
    intro s hs s' hs' he
    exact (k5 s hs).2 (he ▸ hs')
  have hhp : ∀ s ∈ k.2 ++ c.data, s ∈ c.heap := by
    intro s hs
    rcases List.mem_append.mp hs with hs | hs
    · exact (k5 s hs).1
    · exact hm.heap s hs
  have hmem : Mem { c with
      trystack := ⟨c.callstack.length, c.data.length⟩ :: c.trystack, callstack := k.1 ++ c.callstack,
      data := k.2 ++ c.data, begin_ := b1, end_ := b1 + 256 } :=
    ⟨⟨r1, hb1⟩, rfl, hnd, hhp, hm.apart⟩
  have hext : Ext (k.2 ++ c.data) (fsegs ++ c.data) := by
    rcases k2 with k2 | ⟨b, k2⟩
    · exact Or.inl (by rw [k2])
    · exact Or.inr ⟨b, by rw [k2]; rfl⟩
  obtain ⟨f, fs, hkf⟩ : ∃ f fs, k.1 = f :: fs := by
    cases hx : k.1 with
    | nil => exact absurd hx k3.ne
    | cons f fs => exact ⟨f, fs, rfl⟩
  have hfh : ∃ b r, fsegs = b :: r ∧ InSeg b f := by
    rw [hkf] at k3; exact k3.head
  obtain ⟨b, rr, hfb, hfin⟩ := hfh
  by_cases hsd : segs' = c.data
  · subst hsd
    have hjoin := k3.join hpre.stk
    have hp : ∃ lo, Pre strict { c with
        trystack := ⟨c.callstack.length, c.data.length⟩ :: c.trystack, callstack := k.1 ++ c.callstack,
        data := k.2 ++ c.data, begin_ := b1, end_ := b1 + 256 }
        { a with stack := pre ++ .handler hh :: a.stack, conts := a.conts.set id none } lo (fsegs ++ c.data) := by
      have hu : ∃ lo, b1 ≤ lo ∧ lo < b1 + 256 ∧ Under strict (k.2 ++ c.data) lo (k.1 ++ c.callstack) (fsegs ++ c.data) := by
        rcases hext with hx | ⟨b0, hx⟩
        · refine ⟨b1 + 255, by omega, by omega, Or.inl ⟨hx.symm, ?_⟩⟩
          intro f' hf'
          rw [hkf] at hf'
          simp at hf'
          subst hf'
          have := top_le hfin
          have hbe : b = b1 := by
            rw [hb1, hfb] at hx
            injection hx with hx _
            exact hx.symm
          have := hfin.2.2
          omega
        · refine ⟨b1, by omega, by omega, Or.inr ⟨b0, hx, fun h => absurd h hns⟩⟩
      obtain ⟨lo, lo1, lo2, hu⟩ := hu
      refine ⟨lo, hjoin, hu, lo1, lo2, hmem, ⟨?_, ?_, ?_⟩, h.res, h.w⟩
      · simp [h.conts.len]
      · intro id' pre' h' hid'
        have hne : id ≠ id' := by
          intro he
          subst he
          rw [List.getElem?_set_self (List.getElem?_eq_some_iff.mp hid).1] at hid'
          simp at hid'
        rw [List.getElem?_set_ne hne] at hid'
        obtain ⟨q, q1, q2, q3, q4⟩ := h.conts.frag id' pre' h' hid'
        refine ⟨q, q1, q2, q3, fun s hs => ⟨(q4 s hs).1, ?_⟩⟩
        show s ∉ k.2 ++ c.data
        rw [List.mem_append]
        intro hor
        rcases hor with hor | hor
        · exact h.conts.apart id id' _ _ k q hne hid hid' k1 q1 s hor hs
        · exact (q4 s hs).2 hor
      · intro i i' p p' q q' hne h1 h2 h3 h4
        have hi : id ≠ i := by
          intro he
          subst he
          rw [List.getElem?_set_self (List.getElem?_eq_some_iff.mp hid).1] at h1
          simp at h1
        have hi' : id ≠ i' := by
          intro he
          subst he
          rw [List.getElem?_set_self (List.getElem?_eq_some_iff.mp hid).1] at h2
          simp at h2
        rw [List.getElem?_set_ne hi] at h1
        rw [List.getElem?_set_ne hi'] at h2
        exact h.conts.apart i i' p p' q q' hne h1 h2 h3 h4
    obtain ⟨lo, hp⟩ := hp
    obtain ⟨c', a', g1, g2, g3⟩ := return_ok hp v
    exact ⟨c', g1, fun _ => ⟨a', .resume nf nr id v junk pre hh lbl a a' hc hid g2, g3⟩⟩
  · obtain ⟨b0, hu⟩ : ∃ b, c.data = b :: segs' := by
      rcases hpre.under with ⟨hu, _⟩ | ⟨b, hu, _⟩
      · exact absurd hu hsd
      · exact ⟨b, hu⟩
    rw [hfb] at hext
    obtain ⟨c', g1, g2, g3, g4⟩ := return_desc hmem (f := f) (fs := fs ++ c.callstack) (by show k.1 ++ _ = _; rw [hkf]; rfl)
      (b := b) (r := rr ++ c.data) hext hfin v
    refine ⟨c', g1, fun hg => ?_⟩
    exfalso
    rcases hg with hg | hg
    · exact hns hg
    · rw [g2, g3, g4] at hg
      have hg' : Spans (fsegs ++ c.data) (k.1 ++ c.callstack) := by rw [hkf, hfb]; exact hg
      have hapd : (k.2 ++ c.data).Pairwise Apart := pairwise_apart hm.apart hnd hhp
      have hfk : ∀ s ∈ fsegs, s ∈ k.2 := by
        intro s hs
        rcases k2 with k2 | ⟨b, k2⟩
        · rw [k2]; exact hs
        · rw [k2]; simp [hs]
      have hapf : (fsegs ++ c.data).Pairwise Apart := by
        rcases k2 with k2 | ⟨b, k2⟩
        · rw [← k2]; exact hapd
        · rw [k2, List.cons_append, List.pairwise_cons] at hapd; exact hapd.2
      obtain ⟨t, t1, t2⟩ := k3.near hapf hg'
      rw [hu] at t2
      refine near_false hpre.stk ?_ ?_ t2
      · intro s hs
        have hsd : s ∈ c.data := by rw [hu]; simp [hs]
        exact apart_of_mem hm.apart (k5 t (hfk t t1)).1 (hm.heap s hsd) (fun he => (k5 t (hfk t t1)).2 (he ▸ hsd))
      · intro s hs
        refine hm.apart_data (by rw [hu]; simp) (by rw [hu]; simp [hs]) ?_
        intro he
        have := hm.nodup
        rw [hu, List.nodup_cons] at this
        exact this.1 (he ▸ hs)

/-- the steps that keep the strict form of the relation -/
def AFrame.plain : AFrame → Prop
  | .code (.user _) _ _ => True
  | .code .curry _ _ => True
  | .code .throw _ _ => True
  | .handler _ => True
  | _ => False

/-- **simulation**: whenever the abstract machine can step, so can the virtual machine, and it does what the abstract
machine may do, unless an activation comes to lie over more than one segment boundary -/
theorem step_rel {malloc : List Nat → Nat} (hmal : Fresh malloc) {sem : Sem W} {strict : Prop} {c : Cora W}
    {a a0 : ASt W} (h : Rel strict c a) (hplain : strict → AFrame.plain a.cur) (hs : AStep sem a a0) :
    ∃ c', step malloc sem c = some c' ∧ (Good strict c' → ∃ a', AStep sem a a' ∧ Rel strict c' a') := by
  have hs' := hs
  cases hs with
  | ret n l regs o v _ _ hc => exact user_rel hmal h hc hs'
  | tail n l regs o f args _ _ hc => exact user_rel hmal h hc hs'
  | call n l regs o l1 f args _ _ hc => exact user_rel hmal h hc hs'
  | curry l nf req g got args junk junk' code gn gr gd _ hc h1 h2 h3 =>
    obtain ⟨c', x1, x2⟩ := curry_rel (malloc := malloc) (sem := sem) h hc h1 h2 h3
    exact ⟨c', x1, fun _ => x2⟩
  | try' self thunk hh junk _ _ hc h1 =>
    have hns : ¬ strict := fun hx => by have := hplain hx; rw [hc] at this; exact this
    exact try_rel hmal hns h hc h1
  | handler hh _ _ hc =>
    obtain ⟨c', x1, x2⟩ := handler_rel (malloc := malloc) (sem := sem) h hc
    exact ⟨c', x1, fun _ => x2⟩
  | throw self v junk pre post hh l _ _ hc h1 h2 h3 => exact throw_rel hmal h hc h1 h2 h3
  | resume nf nr id v junk pre hh l _ _ hc h1 h2 =>
    have hns : ¬ strict := fun hx => by have := hplain hx; rw [hc] at this; exact this
    exact resume_rel hns h hc h1
  | apply self f l args junk lbl _ _ hc h1 h2 =>
    have hns : ¬ strict := fun hx => by have := hplain hx; rw [hc] at this; exact this
    exact apply_rel hmal hns h hc h1 h2
  | rest args _ _ hc h1 =>
    have hns : ¬ strict := fun hx => by have := hplain hx; rw [hc] at this; exact this
    exact rest_rel hmal hns h hc h1

end Cora.VM
