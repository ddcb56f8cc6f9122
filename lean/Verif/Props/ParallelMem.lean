import Verif.Model.ParallelMem
/-
C75, in memory: the linked queues of a mailbox are the lists of Model/Parallel.
-/
open Spec.Mailbox
namespace Cora.Parallel
variable {α : Type}

/-- the addresses are linked one to the next; what is behind the last one does not matter -/
def Linked (next : Nat → Nat) : List Nat → Prop
  | a :: b :: l => next a = b ∧ Linked next (b :: l)
  | _ => True

/-- the queue has these values, in nodes at these addresses -/
structure Holds (h : Heap α) (q : Queue) (as : List Nat) (vs : List (α ⊕ Nat)) : Prop where
  len : q.len = as.length
  head : ∀ a ∈ as.head?, q.head = a
  tail : ∀ a ∈ as.getLast?, q.tail = a
  linked : Linked h.next as
  vals : as.map h.val = vs
  used : ∀ a ∈ as, a ∈ h.used
  nodup : as.Nodup

theorem linked_congr {f g : Nat → Nat} : ∀ {l : List Nat}, (∀ a ∈ l, f a = g a) → Linked f l → Linked g l
  | [], _, _ => trivial
  | [_], _, _ => trivial
  | a :: b :: l, h, ⟨h1, h2⟩ => ⟨by rw [← h a (by simp)]; exact h1, linked_congr (fun x hx => h x (List.mem_cons_of_mem _ hx)) h2⟩

theorem linked_snoc {f : Nat → Nat} {n : Nat} : ∀ {l : List Nat} {t : Nat}, l.getLast? = some t → l.Nodup → Linked f l →
    Linked (put f t n) (l ++ [n])
  | [], _, h, _, _ => by cases h
  | [a], t, h, _, _ => by simp at h; subst h; simp [Linked, put]
  | a :: b :: l, t, h, hn, ⟨h1, h2⟩ => by
    have ht : (b :: l).getLast? = some t := by simpa using h
    have hne : a ≠ t := by
      intro e
      subst e
      exact (List.nodup_cons.mp hn).1 (List.mem_of_getLast? ht)
    exact ⟨by simp [put, hne, h1], linked_snoc ht (List.nodup_cons.mp hn).2 h2⟩

/-- other queues keep what they have when memory is changed elsewhere -/
theorem Holds.frame {h h' : Heap α} {q : Queue} {as : List Nat} {vs : List (α ⊕ Nat)} (H : Holds h q as vs)
    (hn : ∀ a ∈ as, h'.next a = h.next a) (hv : ∀ a ∈ as, h'.val a = h.val a) (hu : ∀ a ∈ h.used, a ∈ h'.used) : Holds h' q as vs where
  len := H.len
  head := H.head
  tail := H.tail
  linked := linked_congr (fun a ha => (hn a ha).symm) H.linked
  vals := by rw [← H.vals]; exact List.map_congr_left hv
  used := fun a ha => hu a (H.used a ha)
  nodup := H.nodup

/-- enqueueing adds a value at the end, in a new node, and touches no other node but the last one of the queue -/
theorem enqueue_holds {malloc junk : List Nat → Nat} (hm : ∀ l, malloc l ∉ l) {h : Heap α} {q : Queue} {as : List Nat} {vs : List (α ⊕ Nat)}
    (H : Holds h q as vs) (v : α ⊕ Nat) :
    ∃ h' q', enqueue malloc junk h q v = some (h', q') ∧ Holds h' q' (as ++ [malloc h.used]) (vs ++ [v]) ∧ h'.used = malloc h.used :: h.used ∧
      (∀ a ∈ h.used, a ∉ as → h'.next a = h.next a) ∧ (∀ a ∈ h.used, h'.val a = h.val a) := by
  have hfr : ∀ a ∈ h.used, a ≠ malloc h.used := fun a ha e => hm h.used (e ▸ ha)
  have hnew : malloc h.used ∉ as := fun hc => hm _ (H.used _ hc)
  have hvals : ∀ nx us, (as ++ [malloc h.used]).map (⟨us, nx, put h.val (malloc h.used) v⟩ : Heap α).val = vs ++ [v] := by
    intro nx us
    rw [List.map_append, ← H.vals]
    congr 1
    · exact List.map_congr_left fun a ha => if_neg (hfr a (H.used a ha))
    · simp [put]
  unfold enqueue
  by_cases hl : q.len = 0
  · have : as = [] := List.eq_nil_of_length_eq_zero (by rw [← H.len]; exact hl)
    subst this
    simp only [hl, if_true]
    refine ⟨_, _, rfl, ⟨rfl, by simp, by simp, trivial, hvals _ _, by simp, by simp⟩, rfl, fun a ha _ => if_neg (hfr a ha), fun a ha => if_neg (hfr a ha)⟩
  · obtain ⟨t, ht⟩ : ∃ t, as.getLast? = some t := by
      cases hg : as.getLast? with
      | none => rw [List.getLast?_eq_none_iff] at hg; subst hg; exact absurd H.len hl
      | some t => exact ⟨t, rfl⟩
    have htl := H.tail t ht
    have hta : t ∈ as := List.mem_of_getLast? ht
    have hin : q.tail ∈ malloc h.used :: h.used := by rw [htl]; exact List.mem_cons_of_mem _ (H.used t hta)
    simp only [if_neg hl, if_pos hin]
    refine ⟨_, _, rfl, ⟨?_, ?_, ?_, ?_, hvals _ _, ?_, ?_⟩, rfl, ?_, fun a ha => if_neg (hfr a ha)⟩
    · simp [H.len]
    · intro a ha
      cases as with
      | nil => cases ht
      | cons x l => exact H.head a (by simpa using ha)
    · intro a ha; simp at ha; exact ha
    · have h1 := linked_snoc (n := malloc h.used) ht H.nodup
        (linked_congr (g := put h.next (malloc h.used) (junk h.used)) (fun a ha => (if_neg (hfr a (H.used a ha))).symm) H.linked)
      rw [htl]
      have key : ∀ (l : List Nat) (f : Nat → Nat) (n : Nat), n ∉ l → Linked f (l ++ [n]) → Linked (put f n 0) (l ++ [n]) := by
        intro l
        induction l with
        | nil => intro f n _ _; trivial
        | cons a l ih =>
          intro f n hn h
          cases l with
          | nil => exact ⟨(if_neg (by simp at hn; exact fun e => hn e.symm)).trans h.1, trivial⟩
          | cons b l => exact ⟨(if_neg (fun e => hn (by simp [e]))).trans h.1, ih f n (fun hc => hn (List.mem_cons_of_mem _ hc)) h.2⟩
      exact key as _ _ hnew h1
    · intro a ha
      rcases List.mem_append.mp ha with ha | ha
      · exact List.mem_cons_of_mem _ (H.used a ha)
      · simp at ha; subst ha; simp
    · rw [List.nodup_append]
      exact ⟨H.nodup, by simp, fun a ha b hb => by simp at hb; subst hb; exact fun e => hnew (e ▸ ha)⟩
    · intro a ha hna
      have h1 : a ≠ q.tail := by rw [htl]; exact fun e => hna (e ▸ hta)
      simp [put, hfr a ha, h1]

/-- dequeueing takes the first value, and touches no other node -/
theorem dequeue_holds {h : Heap α} {q : Queue} {a : Nat} {as : List Nat} {v : α ⊕ Nat} {vs : List (α ⊕ Nat)} (H : Holds h q (a :: as) (v :: vs)) :
    ∃ h' q', dequeue h q = some (a, h', q') ∧ Holds h' q' as vs ∧ h'.used = h.used ∧ (∀ x, x ≠ a → h'.next x = h.next x) ∧ h'.val = h.val ∧
      h.val a = v := by
  have hl : q.len > 0 := by rw [H.len]; simp
  have hh : q.head = a := H.head a (by simp)
  have hu : q.head ∈ h.used := hh ▸ H.used a (by simp)
  have hv := H.vals
  simp only [List.map_cons, List.cons.injEq] at hv
  unfold dequeue
  rw [hh] at hu
  simp only [if_pos hl, hh, if_pos hu]
  refine ⟨_, _, rfl, ⟨?_, ?_, ?_, ?_, hv.2, fun x hx => H.used x (List.mem_cons_of_mem _ hx), (List.nodup_cons.mp H.nodup).2⟩, rfl,
    fun x hx => if_neg hx, rfl, hv.1⟩
  · simp [H.len]
  · intro b hb
    cases as with
    | nil => cases hb
    | cons c l => simp at hb; subst hb; exact H.linked.1
  · intro b hb
    cases as with
    | nil => cases hb
    | cons c l => exact H.tail b (by simpa using hb)
  · have : Linked h.next as := by
      cases as with
      | nil => trivial
      | cons c l => exact H.linked.2
    exact linked_congr (fun x hx => (if_neg fun e : x = a => (List.nodup_cons.mp H.nodup).1 (e ▸ hx)).symm) this

/-- a mailbox in memory and the mailbox of Model/Parallel -/
structure Shows (m : MSt α) (s : St α) : Prop where
  queues : ∃ as bs, Holds m.heap m.data as (s.data.map .inl) ∧ Holds m.heap m.blocked bs (s.blocked.map .inr) ∧ ∀ a ∈ as, a ∉ bs
  about : m.about = s.about
  got : m.got = s.got

theorem shows_len {m : MSt α} {s : St α} (h : Shows m s) : m.data.len = s.data.length ∧ m.blocked.len = s.blocked.length := by
  obtain ⟨as, bs, h1, h2, _⟩ := h.queues
  have e1 := congrArg List.length h1.vals
  have e2 := congrArg List.length h2.vals
  simp at e1 e2
  exact ⟨h1.len.trans e1, h2.len.trans e2⟩

theorem step_shows [DecidableEq α] {malloc junk : List Nat → Nat} (hm : ∀ l, malloc l ∉ l) (fls extra : α) {m : MSt α} {s : St α}
    (h : Shows m s) (x : Act α) : ∃ m', stepM malloc junk fls extra m x = some m' ∧ Shows m' (step fls extra s x) := by
  obtain ⟨hl1, hl2⟩ := shows_len h
  obtain ⟨as, bs, h1, h2, hd⟩ := h.queues
  cases x with
  | send v =>
    simp only [stepM, sendM, step, send]
    cases hb : s.blocked with
    | nil =>
      rw [hb] at h2 hl2
      rw [if_neg (by rw [hl2]; simp)]
      obtain ⟨h', q', e1, e2, e3, e4, e5⟩ := enqueue_holds (malloc := malloc) (junk := junk) hm h1 (.inl v)
      rw [e1]
      refine ⟨_, rfl, ⟨as ++ [malloc m.heap.used], bs, by simpa using e2, ?_, ?_⟩, h.about, h.got⟩
      · exact h2.frame (fun a ha => e4 a (h2.used a ha) fun hc => hd a hc ha) (fun a ha => e5 a (h2.used a ha)) (fun a ha => by rw [e3]; exact List.mem_cons_of_mem _ ha)
      · intro a ha hc
        rcases List.mem_append.mp ha with ha | ha
        · exact hd a ha hc
        · simp at ha; subst ha; exact hm _ (h2.used _ hc)
    | cons r rs =>
      rw [hb] at h2 hl2
      rw [if_pos (by rw [hl2]; simp)]
      cases bs with
      | nil => have := h2.vals; simp at this
      | cons b bs =>
        obtain ⟨h', q', e1, e2, e3, e4, e5, e6⟩ := dequeue_holds h2
        rw [e1]
        simp only [e5, e6]
        exact ⟨_, rfl, ⟨as, bs, h1.frame (fun a ha => e4 a fun e => hd a ha (e ▸ List.mem_cons_self)) (fun a _ => by rw [e5]) (fun a ha => by rw [e3]; exact ha), e2,
          fun a ha hc => hd a ha (List.mem_cons_of_mem _ hc)⟩, h.about, by rw [h.got]⟩
  | look r =>
    simp only [stepM, lookM, step, look]
    cases hb : s.data with
    | nil =>
      rw [hb] at h1 hl1
      rw [if_neg (by rw [hl1]; simp)]
      exact ⟨_, rfl, ⟨as, bs, h1, h2, hd⟩, by rw [h.about], h.got⟩
    | cons v d =>
      rw [hb] at h1 hl1
      rw [if_pos (by rw [hl1]; simp)]
      cases as with
      | nil => have := h1.vals; simp at this
      | cons a as =>
        obtain ⟨h', q', e1, e2, e3, e4, e5, e6⟩ := dequeue_holds h1
        rw [e1]
        simp only [e5, e6]
        have hq : ∃ as bs, Holds h' q' as (d.map .inl) ∧ Holds h' m.blocked bs (s.blocked.map .inr) ∧ ∀ a ∈ as, a ∉ bs :=
          ⟨as, bs, e2, h2.frame (fun x hx => e4 x fun e => hd a List.mem_cons_self (e ▸ hx)) (fun x _ => by rw [e5]) (fun x hx => by rw [e3]; exact hx),
            fun x hx => hd x (List.mem_cons_of_mem _ hx)⟩
        by_cases hv : v = fls
        · rw [if_pos hv, if_pos hv]; exact ⟨_, rfl, hq, by rw [h.about], h.got⟩
        · rw [if_neg hv, if_neg hv]; exact ⟨_, rfl, hq, h.about, by rw [h.got]⟩
  | wait r =>
    simp only [stepM, waitM, step, wait]
    rw [h.about]
    by_cases hr : r ∈ s.about
    · rw [if_pos hr, if_pos hr, if_neg (by omega), if_neg (by omega)]
      obtain ⟨h', q', e1, e2, e3, e4, e5⟩ := enqueue_holds (malloc := malloc) (junk := junk) hm h2 (.inr r)
      rw [e1]
      refine ⟨_, rfl, ⟨as, bs ++ [malloc m.heap.used], ?_, by simpa using e2, ?_⟩, rfl, h.got⟩
      · exact h1.frame (fun a ha => e4 a (h1.used a ha) (hd a ha)) (fun a ha => e5 a (h1.used a ha)) (fun a ha => by rw [e3]; exact List.mem_cons_of_mem _ ha)
      · intro a ha hc
        rcases List.mem_append.mp hc with hc | hc
        · exact hd a ha hc
        · simp at hc; subst hc; exact hm _ (h1.used _ ha)
    · rw [if_neg hr, if_neg hr]
      exact ⟨_, rfl, h⟩

/-- **C75**, in memory. Whatever `malloc` gives, as long as it is new, and whatever is in the memory it gives, no schedule makes the
queues of a mailbox fail or use memory that is not theirs, and receivers get what they get from queues that are lists (to which the
other theorems apply). -/
theorem C75_memory [DecidableEq α] (malloc junk : List Nat → Nat) (hm : ∀ l, malloc l ∉ l) (fls extra : α) (h : Heap α)
    (acts : List (Act α)) :
    ∃ m, runM malloc junk fls extra h acts = some m ∧ m.got = (run fls extra acts).got ∧ m.about = (run fls extra acts).about ∧
      m.data.len = (run fls extra acts).data.length ∧ m.blocked.len = (run fls extra acts).blocked.length := by
  suffices H : ∀ (acts : List (Act α)) (m : MSt α) (s : St α), Shows m s →
      ∃ m', acts.foldlM (stepM malloc junk fls extra) m = some m' ∧ Shows m' (acts.foldl (step fls extra) s) by
    obtain ⟨m, h1, h2⟩ := H acts ⟨h, ⟨0, 0, 0⟩, ⟨0, 0, 0⟩, [], []⟩ ⟨[], [], [], []⟩
      ⟨⟨[], [], ⟨rfl, by simp, by simp, trivial, rfl, by simp, by simp⟩, ⟨rfl, by simp, by simp, trivial, rfl, by simp, by simp⟩, by simp⟩, rfl, rfl⟩
    exact ⟨m, h1, h2.got, h2.about, shows_len h2⟩
  intro acts
  induction acts with
  | nil => intro m s h; exact ⟨m, rfl, h⟩
  | cons x acts ih =>
    intro m s h
    obtain ⟨m1, h1, h2⟩ := step_shows (malloc := malloc) (junk := junk) hm fls extra h x
    obtain ⟨m2, h3, h4⟩ := ih m1 _ h2
    exact ⟨m2, by rw [List.foldlM_cons, h1]; exact h3, h4⟩

/-- non-vacuity: a `malloc` that gives new addresses -/
example : ∀ l : List Nat, (fun l : List Nat => l.sum + 1) l ∉ l := by
  intro l hl
  have : ∀ (l : List Nat) (x : Nat), x ∈ l → x ≤ l.sum := by
    intro l
    induction l with
    | nil => intro x hx; cases hx
    | cons a l ih =>
      intro x hx
      rcases List.mem_cons.mp hx with rfl | hx
      · simp
      · have := ih x hx; simp; omega
  have := this l _ hl
  simp only at this
  omega

example : ((runM (fun l => l.sum + 1) (fun _ => 99) 0 7 ⟨[], fun _ => 5, fun _ => .inr 3⟩
    [.send 1, .look 5, .send 2, .send 3, .look 6, .look 7, .look 8, .wait 8, .send 4]).map fun m => m.got) = some [(8, 7), (7, 3), (6, 2), (5, 1)] := by
  decide

end Cora.Parallel
