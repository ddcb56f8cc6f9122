import Verif.Model.Watch
/-
C97: watching descriptors.
-/
open Spec.Watch
namespace Cora.Watch
variable {V : Type}

/-! ### lists -/

/-- the first `n` results come from some of the elements; from all of them, if there are not more -/
theorem take_filterMap {α β : Type} (f : α → Option β) : ∀ (l : List α) (n : Nat), ∃ F : List α, F.Sublist l ∧ (l.filterMap f).take n = F.filterMap f ∧
    ((l.filterMap f).length ≤ n → ∀ x ∈ l, (f x).isSome → x ∈ F)
  | [], n => ⟨[], .slnil, by simp, fun _ x hx => by cases hx⟩
  | a :: l, n => by
    cases hf : f a with
    | none =>
      obtain ⟨F, h1, h2, h3⟩ := take_filterMap f l n
      refine ⟨F, .cons _ h1, by simp [hf, h2], fun hl x hx hs => ?_⟩
      rw [List.filterMap_cons_none hf] at hl
      rcases List.mem_cons.mp hx with rfl | hx
      · rw [hf] at hs; cases hs
      · exact h3 hl x hx hs
    | some b =>
      cases n with
      | zero => exact ⟨[], List.nil_sublist _, by simp, fun hl => by simp [hf] at hl⟩
      | succ n =>
        obtain ⟨F, h1, h2, h3⟩ := take_filterMap f l n
        refine ⟨a :: F, .cons_cons _ h1, by simp [hf, h2], fun hl x hx hs => ?_⟩
        simp only [List.filterMap_cons_some hf, List.length_cons] at hl
        rcases List.mem_cons.mp hx with rfl | hx
        · exact List.mem_cons_self
        · exact List.mem_cons_of_mem _ (h3 (by omega) x hx hs)

theorem nodup_pairs {F : List Nat} (h : F.Nodup) (g : Nat → Mode → Bool) :
    (F.flatMap fun fd => ([Mode.read, .write].filter (g fd)).map fun m => (fd, m)).Nodup := by
  rw [List.Nodup, List.pairwise_flatMap]
  constructor
  · intro fd _
    cases h1 : g fd .read <;> cases h2 : g fd .write <;> simp [h1, h2]
  · refine h.imp fun {a b} hab x hx y hy e => ?_
    simp only [List.mem_map] at hx hy
    obtain ⟨_, _, rfl⟩ := hx
    obtain ⟨_, _, rfl⟩ := hy
    exact hab (Prod.mk.inj e).1

theorem mem_pairs {F : List Nat} {g : Nat → Mode → Bool} {fd : Nat} {m : Mode} :
    (fd, m) ∈ (F.flatMap fun fd => ([Mode.read, .write].filter (g fd)).map fun m => (fd, m)) ↔ fd ∈ F ∧ g fd m = true := by
  simp only [List.mem_flatMap, List.mem_map, List.mem_filter, Prod.mk.injEq]
  constructor
  · rintro ⟨x, h1, y, ⟨_, h2⟩, rfl, rfl⟩; exact ⟨h1, h2⟩
  · rintro ⟨h1, h2⟩; exact ⟨fd, h1, m, ⟨by cases m <;> simp, h2⟩, rfl, rfl⟩

/-! ### epoll -/

/-- the bit of a mode -/
def bit : Mode → Nat
  | .read => 0
  | .write => 2

/-- what the kernel keeps is what is watched -/
structure Agrees (k : Epoll.Kernel V) (s : State V) : Prop where
  isOpen : k.isOpen = s.isOpen
  entry : ∀ fd, (k.entry fd = none ∧ s.watched fd = none) ∨ ∃ e v f, k.entry fd = some (e, v) ∧ s.watched fd = some (v, f) ∧ (∀ m, e.testBit (bit m) = f m) ∧ ∀ i, e.testBit i = true → ∃ m, i = bit m

theorem agrees_set {k : Epoll.Kernel V} {s : State V} (h : Agrees k s) (fd : Nat) {x y}
    (hx : (x = none ∧ y = none) ∨ ∃ e v f, x = some (e, v) ∧ y = some (v, f) ∧ (∀ m, e.testBit (bit m) = f m) ∧ ∀ i, e.testBit i = true → ∃ m, i = bit m) : Agrees (k.set fd x) (s.set fd y) := by
  refine ⟨h.isOpen, fun fd' => ?_⟩
  simp only [Epoll.Kernel.set, State.set]
  by_cases e : fd' = fd
  · simpa [e] using hx
  · simpa [e] using h.entry fd'

theorem newMode_bit (m : Mode) : ∀ (ms : List (Option Mode)) (n : Nat), (Epoll.newMode ms n).testBit (bit m) = (n.testBit (bit m) || decide (some m ∈ ms))
  | [], n => by simp [Epoll.newMode]
  | none :: ms, n => by rw [Epoll.newMode, newMode_bit m ms]; simp
  | some .read :: ms, n => by
    rw [Epoll.newMode, newMode_bit m ms]
    have h0 : Epoll.EPOLLIN.testBit 0 = true := by decide
    have h2 : Epoll.EPOLLIN.testBit 2 = false := by decide
    cases m <;> simp only [bit, Nat.testBit_or, h0, h2] <;> simp [-Nat.testBit_zero]
  | some .write :: ms, n => by
    rw [Epoll.newMode, newMode_bit m ms]
    have h0 : Epoll.EPOLLOUT.testBit 0 = false := by decide
    have h2 : Epoll.EPOLLOUT.testBit 2 = true := by decide
    cases m <;> simp only [bit, Nat.testBit_or, h0, h2] <;> simp [-Nat.testBit_zero]

theorem newMode_only : ∀ (ms : List (Option Mode)) (n : Nat), (∀ i, n.testBit i = true → ∃ m, i = bit m) → ∀ i, (Epoll.newMode ms n).testBit i = true → ∃ m, i = bit m
  | [], n, h, i, hi => h i hi
  | none :: ms, n, h, i, hi => newMode_only ms n h i hi
  | some .read :: ms, n, h, i, hi => newMode_only ms _ (fun j hj => by
      rw [Nat.testBit_or, Bool.or_eq_true, Epoll.EPOLLIN, Nat.testBit_two_pow, decide_eq_true_eq] at hj
      exact hj.elim (h j) fun e => ⟨.read, e.symm⟩) i hi
  | some .write :: ms, n, h, i, hi => newMode_only ms _ (fun j hj => by
      rw [Nat.testBit_or, Bool.or_eq_true, Epoll.EPOLLOUT, Nat.testBit_two_pow, decide_eq_true_eq] at hj
      exact hj.elim (h j) fun e => ⟨.write, e.symm⟩) i hi

theorem agrees_none {k : Epoll.Kernel V} {s : State V} (h : Agrees k s) (fd : Nat) : (k.entry fd).isNone = (s.watched fd).isNone := by
  rcases h.entry fd with ⟨h1, h2⟩ | ⟨_, _, _, h1, h2, _, _⟩ <;> rw [h1, h2] <;> rfl
theorem agrees_some {k : Epoll.Kernel V} {s : State V} (h : Agrees k s) (fd : Nat) : (k.entry fd).isSome = (s.watched fd).isSome := by
  rcases h.entry fd with ⟨h1, h2⟩ | ⟨_, _, _, h1, h2, _, _⟩ <;> rw [h1, h2] <;> rfl

theorem agrees_add {k : Epoll.Kernel V} {s : State V} (h : Agrees k s) (fd : Nat) (m : Mode) (v : V) (e : Nat) (he : e = 2 ^ bit m) :
    Agrees (Epoll.ctlAdd k fd e v) (s.step (.add fd m v)) := by
  simp only [Epoll.ctlAdd, State.step]
  have hc : (k.isOpen fd && (k.entry fd).isNone) = true ↔ s.isOpen fd = true ∧ (s.watched fd).isNone = true := by
    rw [Bool.and_eq_true, h.isOpen, agrees_none h]
  by_cases hp : s.isOpen fd = true ∧ (s.watched fd).isNone = true
  · rw [if_pos (hc.mpr hp), if_pos hp]
    refine agrees_set h fd (.inr ⟨_, _, _, rfl, rfl, fun x => ?_, fun i hi => ⟨m, ?_⟩⟩) <;> subst he
    · cases m <;> cases x <;> decide
    · rw [Nat.testBit_two_pow, decide_eq_true_eq] at hi; exact hi.symm
  · rw [if_neg fun e => hp (hc.mp e), if_neg hp]
    exact h

theorem agrees_step {k : Epoll.Kernel V} {s : State V} (h : Agrees k s) (op : Op V) : Agrees (Epoll.step k op) (s.step op) := by
  cases op with
  | opened fd => exact ⟨by simp only [Epoll.step, State.step, h.isOpen], h.entry⟩
  | closed fd =>
    have := agrees_set h fd (.inl ⟨rfl, rfl⟩)
    exact ⟨by simp only [Epoll.step, State.step, h.isOpen], this.entry⟩
  | add fd m v =>
    cases m
    · exact agrees_add h fd .read v _ rfl
    · exact agrees_add h fd .write v _ rfl
  | mod fd ms v =>
    simp only [Epoll.step, Epoll.pollCtlMod, Epoll.ctlMod, State.step, agrees_some h]
    split
    · refine agrees_set h fd (.inr ⟨_, _, _, rfl, rfl, fun m => ?_, newMode_only ms 0 (by simp)⟩)
      rw [newMode_bit]
      simp
    · exact h
  | del fd =>
    simp only [Epoll.step, Epoll.pollCtlDel, Epoll.ctlDel, State.step]
    split
    · exact agrees_set h fd (.inl ⟨rfl, rfl⟩)
    · rename_i hn
      refine ⟨h.isOpen, fun fd' => ?_⟩
      simp only [State.set]
      by_cases e : fd' = fd
      · subst e
        have : k.entry fd' = none := by simpa using hn
        exact .inl ⟨this, if_pos rfl⟩
      · rw [if_neg e]; exact h.entry fd'

theorem agrees_run {ops : List (Op V)} : ∀ {k : Epoll.Kernel V} {s : State V}, Agrees k s → Agrees (Epoll.run k ops) (after s ops) := by
  induction ops with
  | nil => exact fun h => h
  | cons op ops ih => exact fun h => ih (agrees_step h op)

theorem and_bit (x i : Nat) : x &&& 2 ^ i = 2 ^ i ↔ x.testBit i = true := by
  constructor
  · intro h
    have := congrArg (fun y => y.testBit i) h
    simpa [Nat.testBit_and] using this
  · intro h
    refine Nat.eq_of_testBit_eq fun j => ?_
    rw [Nat.testBit_and, Nat.testBit_two_pow]
    by_cases e : i = j
    · subst e; simp [h]
    · simp [e]

theorem always_bit (m : Mode) : Epoll.always.testBit (bit m) = false := by cases m <;> decide

/-- the modes that the event of a descriptor shows -/
def shown (k : Epoll.Kernel V) (ready : Nat → Nat) (fd : Nat) (m : Mode) : Bool :=
  match k.entry fd with
  | none => false
  | some (e, _) => e.testBit (bit m) && (ready fd).testBit (bit m)

theorem answer_eq : ∀ (es : List (Nat × V)) (ret : List (V × Mode)),
    Epoll.answer es ret = (es.flatMap fun p => ([Mode.read, .write].filter fun m => p.1.testBit (bit m)).map fun m => (p.2, m)).reverse ++ ret
  | [], ret => rfl
  | (e, v) :: es, ret => by
    have h1 : (e &&& Epoll.EPOLLIN = Epoll.EPOLLIN) ↔ e.testBit (bit .read) = true := and_bit e 0
    have h2 : (e &&& Epoll.EPOLLOUT = Epoll.EPOLLOUT) ↔ e.testBit (bit .write) = true := and_bit e 2
    rw [Epoll.answer, answer_eq es]
    simp only [h1, h2]
    cases k1 : e.testBit (bit .read) <;> cases k2 : e.testBit (bit .write) <;> simp [k1, k2]

theorem shown_due {k : Epoll.Kernel V} {s : State V} (h : Agrees k s) (ready : Nat → Nat) (fd : Nat) (m : Mode) :
    shown k ready fd m = true ↔ s.Due (fun fd m => (ready fd).testBit (bit m)) fd m := by
  unfold shown State.Due
  rcases h.entry fd with ⟨h1, h2⟩ | ⟨e, v, f, h1, h2, h3, h4⟩
  · rw [h1, h2]
    constructor
    · intro x; cases x
    · rintro ⟨_, _, x, _⟩; cases x
  · rw [h1, h2]
    simp only [h3, Bool.and_eq_true]
    constructor
    · rintro ⟨x, y⟩; exact ⟨v, f, rfl, x, y⟩
    · rintro ⟨v', f', x, y, z⟩; cases x; exact ⟨y, z⟩

theorem events_shown {k : Epoll.Kernel V} {s : State V} (h : Agrees k s) (ready : Nat → Nat) : ∀ F : List Nat,
    ((F.filterMap (Epoll.eventOf k ready)).flatMap fun p => ([Mode.read, .write].filter fun m => p.1.testBit (bit m)).map fun m => (p.2, m)).map some =
    (F.flatMap fun fd => ([Mode.read, .write].filter (shown k ready fd)).map fun m => (fd, m)).map fun p => (s.watched p.1).map fun x => (x.1, p.2)
  | [] => rfl
  | fd :: F => by
    have ih := events_shown h ready F
    rw [List.flatMap_cons, List.map_append, ← ih]
    rcases h.entry fd with ⟨h1, h2⟩ | ⟨e, v, f, h1, h2, h3, h4⟩
    · have : Epoll.eventOf k ready fd = none := by rw [Epoll.eventOf, h1]
      have hs : ∀ m, shown k ready fd m = false := by intro m; rw [shown, h1]
      simp [this, hs]
    · have hb : ∀ m, ((e ||| Epoll.always) &&& ready fd).testBit (bit m) = shown k ready fd m := by
        intro m
        rw [Nat.testBit_and, Nat.testBit_or, always_bit, Bool.or_false, shown, h1]
      by_cases hz : (e ||| Epoll.always) &&& ready fd = 0
      · have : Epoll.eventOf k ready fd = none := by rw [Epoll.eventOf, h1]; simp [hz]
        have hs : ∀ m, shown k ready fd m = false := by intro m; rw [← hb m, hz]; simp
        simp [this, hs]
      · have : Epoll.eventOf k ready fd = some ((e ||| Epoll.always) &&& ready fd, v) := by rw [Epoll.eventOf, h1]; simp [hz]
        rw [List.filterMap_cons_some this, List.flatMap_cons, List.map_append]
        congr 1
        simp only [hb]
        cases shown k ready fd .read <;> cases shown k ready fd .write <;> simp_all

/-- what the answers of the kernel come to: the order of the call that was not interrupted -/
inductive Gives : List Answer → List Nat → Prop where
  | now {order as} : Gives (.events order :: as) order
  | later {order as} : Gives as order → Gives (.interrupted :: as) order

/-- **C97** on Linux. After any history of opening, closing, `net-poll-add`, `net-poll-mod` and `net-poll-del`, what `net-poll` answers is right: an
entry for each descriptor and mode that are watched and ready, with the value given last, none twice; and all of them, if there are not more than 64 —
provided that a descriptor with an error is also ready for something it is watched for. It does not matter how often the call is interrupted. The
kernel may consider the descriptors in any order. -/
theorem C97_epoll {ops : List (Op V)} {ready : Nat → Nat} {as : List Answer} {order : List Nat} (ha : Gives as order) (hnd : order.Nodup)
    (hall : ∀ fd, ((after State.start ops).watched fd).isSome → fd ∈ order)
    (herr : ∀ fd, ((after State.start ops).watched fd).isSome → ((ready fd).testBit 3 = true ∨ (ready fd).testBit 4 = true) →
      ∃ m, (after State.start ops).Due (fun fd m => (ready fd).testBit (bit m)) fd m) :
    ∃ out, Epoll.poll (Epoll.run .start ops) ready as = some out ∧
      (after State.start ops).Reports (fun fd m => (ready fd).testBit (bit m)) 64 out := by
  have h : Agrees (Epoll.run Epoll.Kernel.start ops) (after (State.start : State V) ops) := agrees_run ⟨rfl, fun _ => .inl ⟨rfl, rfl⟩⟩
  generalize Epoll.run Epoll.Kernel.start ops = k at h
  generalize after (State.start : State V) ops = s at *
  have hp : Epoll.poll k ready as = some (Epoll.answer ((order.filterMap (Epoll.eventOf k ready)).take 64) []) := by
    induction ha with
    | now => rfl
    | later _ ih => exact ih hnd hall
  refine ⟨_, hp, ?_⟩
  obtain ⟨F, h1, h2, h3⟩ := take_filterMap (Epoll.eventOf k ready) order 64
  rw [h2, answer_eq, List.append_nil]
  have hF : F.Nodup := hnd.sublist h1
  refine ⟨(F.flatMap fun fd => ([Mode.read, .write].filter (shown k ready fd)).map fun m => (fd, m)).reverse,
    (List.reverse_perm _).nodup_iff.mpr (nodup_pairs hF _), ?_, ?_, ?_⟩
  · rw [List.map_reverse, List.map_reverse, events_shown h]
  · rintro ⟨fd, m⟩ hm
    rw [List.mem_reverse, mem_pairs] at hm
    exact (shown_due h ready fd m).mp hm.2
  · rintro ⟨ps, hps, hcov⟩ fd m hd
    rw [List.mem_reverse, mem_pairs]
    refine ⟨?_, (shown_due h ready fd m).mpr hd⟩
    have some_due : ∀ fd, (Epoll.eventOf k ready fd).isSome → ∃ m, s.Due (fun fd m => (ready fd).testBit (bit m)) fd m := by
      intro fd hs
      rcases h.entry fd with ⟨h1, _⟩ | ⟨e, v, f, h1, h2, h3, h4⟩
      · rw [Epoll.eventOf, h1] at hs; cases hs
      · rw [Epoll.eventOf, h1] at hs
        simp only at hs
        split at hs
        · cases hs
        · rename_i hz
          by_cases he : (ready fd).testBit 3 = true ∨ (ready fd).testBit 4 = true
          · exact herr fd (by rw [h2]; rfl) he
          · refine Classical.byContradiction fun hno => hz (Nat.eq_of_testBit_eq fun i => ?_)
            rw [Nat.testBit_and, Nat.testBit_or]
            by_cases hr : (ready fd).testBit i = true
            · rw [hr, Bool.and_true]
              have ha : Epoll.always.testBit i = false := by
                rw [Epoll.always, Nat.testBit_or, Nat.testBit_two_pow, Nat.testBit_two_pow]
                have h3 : 3 ≠ i := by rintro rfl; exact he (.inl hr)
                have h4 : 4 ≠ i := by rintro rfl; exact he (.inr hr)
                simp [h3, h4]
              rw [ha, Bool.or_false]
              cases hei : e.testBit i with
              | false => simp
              | true =>
                obtain ⟨m, rfl⟩ := h4 i hei
                exact absurd ⟨m, v, f, h2, (h3 m).symm.trans hei, hr⟩ hno
            · simp [hr]
    have len : (order.filterMap (Epoll.eventOf k ready)).length ≤ 64 := by
      have e1 : (order.filterMap (Epoll.eventOf k ready)).length = (order.filter fun fd => (Epoll.eventOf k ready fd).isSome).length := by
        clear h1 h2 h3 hnd hall hp ha
        induction order with
        | nil => rfl
        | cons a l ih => cases hf : Epoll.eventOf k ready a <;> simp [hf, ih]
      rw [e1]
      refine Nat.le_trans ?_ hps
      rw [← List.length_map (f := Prod.fst) (as := ps)]
      refine (hnd.sublist List.filter_sublist).length_le_of_subset fun x hx => ?_
      obtain ⟨m, hm⟩ := some_due x (List.mem_filter.mp hx).2
      exact List.mem_map.mpr ⟨_, hcov x m hm, rfl⟩
    refine h3 len fd (hall fd ?_) ?_
    · obtain ⟨v, f, e, _⟩ := hd
      rw [e]; rfl
    · obtain ⟨v, f, e, hf, hr⟩ := hd
      rcases h.entry fd with ⟨_, g2⟩ | ⟨e', v', f', g1, g2, g3, g4⟩
      · rw [g2] at e; cases e
      · rw [g2] at e
        cases e
        rw [Epoll.eventOf, g1]
        simp only
        rw [if_neg]
        · rfl
        · intro hz
          have := congrArg (fun y => y.testBit (bit m)) hz
          simp only [Nat.testBit_and, Nat.testBit_or, Nat.zero_testBit, g3, hf, always_bit] at this
          simp only at hr
          rw [hr] at this
          cases this

/-! ### kqueue -/

/-- the kernel keeps a value for each mode of each watched descriptor -/
structure AgreesK (k : Kqueue.Kernel V) (s : State V) : Prop where
  isOpen : k.isOpen = s.isOpen
  entry : ∀ fd m, k.entry fd m = match s.watched fd with | none => none | some (v, f) => if f m = true then some v else none
  live : ∀ fd, (s.watched fd).isSome → s.isOpen fd = true

/-- What `kqueue.c` copes with: `net-poll-add` only for what is open and not watched; `net-poll-mod` only for what is watched, for at least the modes it
is watched for, and with at most two modes in the list; `net-poll-del` only for what is also watched for reading, if it is for writing. -/
def Orderly (s : State V) : Op V → Prop
  | .opened _ => True
  | .closed _ => True
  | .add fd _ _ => s.isOpen fd = true ∧ s.watched fd = none
  | .mod fd ms _ => (ms.filter Option.isSome).length ≤ 2 ∧ ∃ v f, s.watched fd = some (v, f) ∧ ∀ m, f m = true → some m ∈ ms
  | .del fd => ∀ v f, s.watched fd = some (v, f) → f .write = true → f .read = true

/-- all operations are such -/
def AllOrderly (s : State V) : List (Op V) → Prop
  | [] => True
  | op :: ops => Orderly s op ∧ AllOrderly (s.step op) ops

theorem changes_eq (fd : Nat) (v : V) : ∀ (ms : List (Option Mode)) (ev : List (Kqueue.Change V)), ev.length + (ms.filter Option.isSome).length ≤ 2 →
    Kqueue.changes fd v ms ev = some (ev ++ (ms.filterMap id).map fun m => .add fd m v)
  | [], ev, _ => by simp [Kqueue.changes]
  | none :: ms, ev, h => by rw [Kqueue.changes, changes_eq fd v ms ev (by simpa using h)]; simp
  | some m :: ms, ev, h => by
    simp only [List.filter_cons, Option.isSome_some, if_true, List.length_cons] at h
    rw [Kqueue.changes, if_pos (by omega), changes_eq fd v ms _ (by simp; omega)]
    simp

theorem kevent_adds (fd : Nat) (v : V) : ∀ (ms : List Mode) (k : Kqueue.Kernel V), k.isOpen fd = true →
    (Kqueue.kevent k (ms.map fun m => .add fd m v)).isOpen = k.isOpen ∧
    ∀ y m, (Kqueue.kevent k (ms.map fun m => .add fd m v)).entry y m = if y = fd ∧ m ∈ ms then some v else k.entry y m
  | [], k, _ => by simp [Kqueue.kevent]
  | a :: ms, k, h => by
    rw [List.map_cons, Kqueue.kevent, if_pos h]
    obtain ⟨h1, h2⟩ := kevent_adds fd v ms (k.set fd a (some v)) h
    refine ⟨h1, fun y m => ?_⟩
    rw [h2]
    simp only [Kqueue.Kernel.set, List.mem_cons]
    by_cases e : y = fd <;> by_cases e1 : m = a <;> by_cases e2 : m ∈ ms <;> simp [e, e1, e2]

theorem agreesK_step {k : Kqueue.Kernel V} {s : State V} (h : AgreesK k s) {op : Op V} (ho : Orderly s op) :
    ∃ k', Kqueue.step k op = some k' ∧ AgreesK k' (s.step op) := by
  cases op with
  | opened fd =>
    refine ⟨_, rfl, by simp only [State.step, h.isOpen], h.entry, fun y hy => ?_⟩
    simp only [State.step]
    split
    · rfl
    · exact h.live y hy
  | closed fd =>
    refine ⟨_, rfl, by simp only [State.step, h.isOpen], fun y m => ?_, fun y hy => ?_⟩
    · simp only [Kqueue.Kernel.set, State.step, State.set]
      by_cases e : y = fd
      · cases m <;> simp [e]
      · simp [e, h.entry]
    · simp only [State.step, State.set] at hy ⊢
      split at hy
      · cases hy
      · rename_i e; rw [if_neg e]; exact h.live y hy
  | add fd m v =>
    obtain ⟨ho, hw⟩ := ho
    have hop : k.isOpen fd = true := by rw [h.isOpen]; exact ho
    have hk : Kqueue.step k (.add fd m v) = some (Kqueue.kevent k ([m].map fun m => .add fd m v)) := by cases m <;> rfl
    obtain ⟨h1, h2⟩ := kevent_adds fd v [m] k hop
    refine ⟨_, hk, ?_, fun y n => ?_, fun y hy => ?_⟩
    · rw [h1, h.isOpen]
      simp only [State.step, ho, hw, Option.isNone_none, and_self, if_true, State.set]
    · rw [h2]
      simp only [State.step, ho, hw, Option.isNone_none, and_self, if_true, State.set, List.mem_singleton]
      by_cases e : y = fd
      · subst e
        have := h.entry y n
        rw [hw] at this
        by_cases e1 : n = m <;> simp [e1, this]
      · simp [e, h.entry]
    · simp only [State.step, ho, hw, Option.isNone_none, and_self, if_true, State.set] at hy ⊢
      split at hy
      · rename_i e; rw [e]; exact ho
      · exact h.live y hy
  | mod fd ms v =>
    obtain ⟨hl, v0, f0, hw, hsub⟩ := ho
    have hop : k.isOpen fd = true := by rw [h.isOpen]; exact h.live fd (by rw [hw]; rfl)
    have hk : Kqueue.step k (.mod fd ms v) = some (Kqueue.kevent k ((ms.filterMap id).map fun m => .add fd m v)) := by
      simp only [Kqueue.step, Kqueue.pollCtlMod]
      rw [changes_eq fd v ms [] (by simpa using hl)]
      rfl
    obtain ⟨h1, h2⟩ := kevent_adds fd v (ms.filterMap id) k hop
    refine ⟨_, hk, ?_, fun y n => ?_, fun y hy => ?_⟩
    · rw [h1, h.isOpen]
      simp only [State.step, hw, Option.isSome_some, if_true, State.set]
    · rw [h2]
      simp only [State.step, hw, Option.isSome_some, if_true, State.set]
      by_cases e : y = fd
      · subst e
        have := h.entry y n
        rw [hw] at this
        simp only at this
        by_cases e1 : some n ∈ ms
        · simp [e1]
        · have : f0 n = false := by
            cases hf : f0 n with
            | false => rfl
            | true => exact absurd (hsub n hf) e1
          simp_all
      · simp [e, h.entry]
    · simp only [State.step, hw, Option.isSome_some, if_true, State.set] at hy ⊢
      split at hy
      · rename_i e; rw [e]; exact h.live fd (by rw [hw]; rfl)
      · exact h.live y hy
  | del fd =>
    refine ⟨_, rfl, ?_, fun y n => ?_, fun y hy => ?_⟩
    · simp only [Kqueue.pollCtlDel, Kqueue.kevent, State.step, State.set]
      split
      · split <;> exact h.isOpen
      · exact h.isOpen
    · have hr := h.entry fd .read
      have hw := h.entry fd .write
      have hy := h.entry y n
      simp only [Kqueue.pollCtlDel, Kqueue.kevent, State.step, State.set]
      simp only [Orderly] at ho
      cases hs : s.watched fd with
      | none =>
        rw [hs] at hr hw
        by_cases e : y = fd
        · subst e; cases n <;> simp_all
        · simp_all
      | some p =>
        obtain ⟨v, f⟩ := p
        rw [hs] at hr hw
        simp only at hr hw
        have := ho v f hs
        by_cases e : y = fd
        · subst e
          cases h1 : f .read <;> cases h2 : f .write <;> cases n <;> simp_all [Kqueue.Kernel.set]
        · cases h1 : f .read <;> cases h2 : f .write <;> simp_all [Kqueue.Kernel.set]
    · simp only [State.step, State.set] at hy ⊢
      split at hy
      · cases hy
      · exact h.live y hy

theorem agreesK_run : ∀ {ops : List (Op V)} {k : Kqueue.Kernel V} {s : State V}, AgreesK k s → AllOrderly s ops →
    ∃ k', Kqueue.run k ops = some k' ∧ AgreesK k' (after s ops)
  | [], k, _, h, _ => ⟨k, rfl, h⟩
  | op :: ops, k, s, h, ho => by
    obtain ⟨k1, e1, h1⟩ := agreesK_step h ho.1
    obtain ⟨k2, e2, h2⟩ := agreesK_run h1 ho.2
    exact ⟨k2, by rw [Kqueue.run, e1]; exact e2, h2⟩

theorem answerK_eq : ∀ (es : List (Mode × V)) (ret : List (V × Mode)), Kqueue.answer es ret = (es.map fun p => (p.2, p.1)).reverse ++ ret
  | [], ret => rfl
  | (f, v) :: es, ret => by rw [Kqueue.answer, answerK_eq es]; cases f <;> simp

theorem dueK {k : Kqueue.Kernel V} {s : State V} (h : AgreesK k s) (ready : Nat → Mode → Bool) (fd : Nat) (m : Mode) :
    (ready fd m && (k.entry fd m).isSome) = true ↔ s.Due ready fd m := by
  rw [h.entry, State.Due]
  cases s.watched fd with
  | none => simp
  | some p =>
    obtain ⟨v, f⟩ := p
    constructor
    · intro h
      have hf : f m = true := by cases hf : f m <;> simp_all
      exact ⟨v, f, rfl, hf, (Bool.and_eq_true _ _ ▸ h).1⟩
    · rintro ⟨v', f', e, h1, h2⟩
      cases e
      simp [h1, h2]

theorem eventsK {k : Kqueue.Kernel V} {s : State V} (h : AgreesK k s) (ready : Nat → Mode → Bool) : ∀ order : List Nat,
    (order.flatMap (Kqueue.eventsOf k ready)).map (fun p => some (p.2, p.1)) =
    (order.flatMap fun fd => ([Mode.read, .write].filter fun m => ready fd m && (k.entry fd m).isSome).map fun m => (fd, m)).map
      fun p => (s.watched p.1).map fun x => (x.1, p.2)
  | [] => rfl
  | fd :: l => by
    rw [List.flatMap_cons, List.flatMap_cons, List.map_append, List.map_append, eventsK h ready l]
    congr 1
    have hr := h.entry fd .read
    have hw := h.entry fd .write
    simp only [Kqueue.eventsOf]
    cases hs : s.watched fd with
    | none => rw [hs] at hr hw; simp [hr, hw]
    | some p =>
      obtain ⟨v, f⟩ := p
      rw [hs] at hr hw
      simp only at hr hw
      cases h1 : f .read <;> cases h2 : f .write <;> cases h3 : ready fd .read <;> cases h4 : ready fd .write <;> simp_all

/-- **C97** on BSD and macOS: what holds. After any history of operations that `kqueue.c` copes with, what `net-poll` answers is right. Missing: the other
histories, see `C97_kqueue_narrow_wrong`, `C97_kqueue_delete_wrong` and `C97_kqueue_overflow_wrong`. -/
theorem C97_kqueue_partial {ops : List (Op V)} {ready : Nat → Mode → Bool} {as : List Answer} {order : List Nat} (ho : AllOrderly State.start ops)
    (ha : Gives as order) (hnd : order.Nodup) (hall : ∀ fd, ((after State.start ops).watched fd).isSome → fd ∈ order) :
    ∃ k out, Kqueue.run .start ops = some k ∧ Kqueue.poll k ready as = some out ∧ (after State.start ops).Reports ready 64 out := by
  obtain ⟨k, hk, h⟩ := agreesK_run (k := Kqueue.Kernel.start) (s := State.start) ⟨rfl, fun _ _ => rfl, fun _ h => by cases h⟩ ho
  generalize after (State.start : State V) ops = s at *
  have hp : Kqueue.poll k ready as = some (Kqueue.answer ((order.flatMap (Kqueue.eventsOf k ready)).take 64) []) := by
    induction ha with
    | now => rfl
    | later _ ih => exact ih hnd hall
  refine ⟨k, _, hk, hp, ?_⟩
  rw [answerK_eq, List.append_nil]
  have hnp := nodup_pairs hnd fun fd m => ready fd m && (k.entry fd m).isSome
  have hm : ∀ fd m, (fd, m) ∈ (order.flatMap fun fd => ([Mode.read, .write].filter fun m => ready fd m && (k.entry fd m).isSome).map fun m => (fd, m)) ↔
      fd ∈ order ∧ (ready fd m && (k.entry fd m).isSome) = true := fun fd m => mem_pairs (g := fun fd m => ready fd m && (k.entry fd m).isSome)
  have he := eventsK h ready order
  revert hnp hm he
  generalize (order.flatMap fun fd => ([Mode.read, .write].filter fun m => ready fd m && (k.entry fd m).isSome).map fun m => (fd, m)) = P
  intro hnp hm he
  refine ⟨(P.take 64).reverse, (List.reverse_perm _).nodup_iff.mpr (hnp.sublist (List.take_sublist _ _)), ?_, ?_, ?_⟩
  · rw [List.map_reverse, List.map_reverse, List.map_map, List.map_take, List.map_take, ← he]
    rfl
  · rintro ⟨fd, m⟩ hx
    exact (dueK h ready fd m).mp ((hm fd m).mp (List.mem_of_mem_take (List.mem_reverse.mp hx))).2
  · rintro ⟨ps, hps, hcov⟩ fd m hd
    have hle : P.length ≤ 64 := Nat.le_trans (hnp.length_le_of_subset fun ⟨x, n⟩ hx => hcov x n ((dueK h ready x n).mp ((hm x n).mp hx).2)) hps
    rw [List.mem_reverse, List.take_of_length_le hle]
    refine (hm fd m).mpr ⟨hall fd ?_, (dueK h ready fd m).mpr hd⟩
    obtain ⟨v, f, e, _⟩ := hd
    rw [e]; rfl

/-- **C97**, the time to wait: seconds and nanoseconds make up the milliseconds, and the nanoseconds are below a second. -/
theorem C97_timeout {t : Int} (h : 0 ≤ t) : ∃ s n, Kqueue.timespec t = some (s, n) ∧ s * 1000000000 + n = t * 1000000 ∧ 0 ≤ s ∧ 0 ≤ n ∧ n < 1000000000 := by
  refine ⟨_, _, if_pos h, ?_⟩
  rw [Int.tdiv_eq_ediv_of_nonneg h, Int.tmod_eq_emod_of_nonneg h]
  omega

/-! ### where the code is wrong -/

/-- On Linux a descriptor with an error (or that was hung up) that is not ready for what it is watched for is not reported: the call ends at once and the
answer is empty, as often as it is made. -/
theorem C97_error_wrong {k : Epoll.Kernel V} {fd e : Nat} {v : V} (hk : k.entry fd = some (e, v)) {ready : Nat → Nat} (hr : ready fd = 2 ^ 3)
    (hm : ∀ m, e.testBit (bit m) = false ∨ (ready fd).testBit (bit m) = false) :
    Epoll.eventOf k ready fd ≠ none ∧ Epoll.poll k ready [.events [fd]] = some [] := by
  have h3 : ((e ||| Epoll.always) &&& ready fd).testBit 3 = true := by
    rw [Nat.testBit_and, Nat.testBit_or, hr]
    have h1 : Epoll.always.testBit 3 = true := by decide
    have h2 : (2 ^ 3).testBit 3 = true := by decide
    rw [h1, h2]; simp
  have hz : (e ||| Epoll.always) &&& ready fd ≠ 0 := by
    intro h
    rw [h] at h3
    simp at h3
  have he : Epoll.eventOf k ready fd = some ((e ||| Epoll.always) &&& ready fd, v) := by rw [Epoll.eventOf, hk]; simp [hz]
  refine ⟨by rw [he]; simp, ?_⟩
  have hb : ∀ m, ((e ||| Epoll.always) &&& ready fd).testBit (bit m) = false := by
    intro m
    rw [Nat.testBit_and, Nat.testBit_or, always_bit, Bool.or_false]
    rcases hm m with h | h <;> rw [h] <;> simp
  simp only [Epoll.poll, List.filterMap_cons_some he, List.filterMap_nil]
  rw [List.take_of_length_le (by simp), answer_eq]
  simp [hb]

/-- On BSD and macOS a descriptor that is watched for writing still is, after `net-poll-mod` with reading only (as `send` in lib/async.cora does when it is
done). -/
theorem C97_kqueue_narrow_wrong {k : Kqueue.Kernel V} {fd : Nat} {w v : V} (hw : k.entry fd .write = some w) (ho : k.isOpen fd = true)
    {ready : Nat → Mode → Bool} (hr : ready fd .write = true) :
    ∃ k' out, Kqueue.step k (.mod fd [some .read] v) = some k' ∧ Kqueue.poll k' ready [.events [fd]] = some out ∧ (w, Mode.write) ∈ out := by
  refine ⟨_, _, rfl, rfl, ?_⟩
  simp only [Kqueue.kevent, List.nil_append, ho, if_true, List.flatMap_cons, List.flatMap_nil, List.append_nil, Kqueue.eventsOf, answerK_eq]
  cases h : ready fd .read <;> simp [Kqueue.Kernel.set, hw, hr, h]

/-- On BSD and macOS a descriptor that is watched for writing only still is, after `net-poll-del`. -/
theorem C97_kqueue_delete_wrong {k : Kqueue.Kernel V} {fd : Nat} (hr : k.entry fd .read = none) : Kqueue.step k (.del fd) = some k := by
  simp [Kqueue.step, Kqueue.pollCtlDel, Kqueue.kevent, hr]

/-- On BSD and macOS more than two modes in the list, even the same ones, overwrite memory. -/
theorem C97_kqueue_overflow_wrong (k : Kqueue.Kernel V) (fd : Nat) (v : V) {ms : List (Option Mode)} (h : 2 < (ms.filter Option.isSome).length) :
    Kqueue.step k (.mod fd ms v) = none := by
  have go : ∀ (ms : List (Option Mode)) (ev : List (Kqueue.Change V)), ev.length ≤ 2 → 2 < ev.length + (ms.filter Option.isSome).length → Kqueue.changes fd v ms ev = none := by
    intro ms
    induction ms with
    | nil => intro ev h1 h2; simp at h2; omega
    | cons m ms ih =>
      intro ev h1 h2
      cases m with
      | none => rw [Kqueue.changes]; exact ih ev h1 (by simpa using h2)
      | some m =>
        rw [Kqueue.changes]
        split
        · simp only [List.filter_cons, Option.isSome_some, if_true, List.length_cons] at h2
          exact ih _ (by simp; omega) (by simp; omega)
        · rfl
  simp only [Kqueue.step, Kqueue.pollCtlMod]
  rw [go ms [] (by simp) (by simpa using h)]
  rfl

/-! ### cases that meet the hypotheses -/

/-- two descriptors, one watched for both, one no longer -/
def history : List (Op String) :=
  [.opened 3, .opened 4, .add 3 .read "a", .add 4 .read "b", .mod 3 [some .write, some .read] "a", .del 4]

theorem history_watched : ∀ fd, ((after State.start history).watched fd).isSome → fd = 3 := by
  intro fd h
  by_cases h3 : fd = 3
  · exact h3
  · by_cases h4 : fd = 4
    · subst h4; revert h; decide
    · exfalso
      revert h
      simp [after, history, State.step, State.set, State.start, h3, h4]

example : ∃ out, Epoll.poll (Epoll.run .start history) (fun fd => if fd = 3 then 5 else 1) [.interrupted, .events [4, 3]] = some out ∧ out = [("a", .write), ("a", .read)] ∧
    (after State.start history).Reports (fun fd m => (if fd = 3 then 5 else 1).testBit (bit m)) 64 out := by
  obtain ⟨out, h1, h2⟩ := C97_epoll (ops := history) (ready := fun fd => if fd = 3 then 5 else 1) (.later .now) (order := [4, 3]) (as := [.interrupted, .events [4, 3]]) (by decide)
    (fun fd h => by rw [history_watched fd h]; decide)
    (fun fd h he => by
      rw [history_watched fd h] at he
      exact absurd he (by decide))
  refine ⟨out, h1, ?_, h2⟩
  have : Epoll.poll (Epoll.run .start history) (fun fd => if fd = 3 then 5 else 1) [.interrupted, .events [4, 3]] = some [("a", .write), ("a", .read)] := by decide +kernel
  rw [this] at h1
  exact (Option.some.inj h1).symm

theorem history_orderly : AllOrderly State.start history := by
  refine ⟨trivial, trivial, ⟨rfl, rfl⟩, ⟨rfl, rfl⟩, ⟨by decide, _, _, rfl, fun m => by cases m <;> decide⟩, fun v f h => ?_, trivial⟩
  cases h
  decide

example : ∃ k out, Kqueue.run .start history = some k ∧ Kqueue.poll k (fun _ m => m == .write) [.interrupted, .events [4, 3]] = some out ∧
    (after State.start history).Reports (fun _ m => m == .write) 64 out :=
  C97_kqueue_partial history_orderly (.later .now) (by decide) fun fd h => by rw [history_watched fd h]; decide

/-- a reachable state for the last four -/
def only (m : Mode) : List (Op String) := [.opened 3, .add 3 m "a"]
example : (Epoll.run .start (only .read)).entry 3 = some (1, "a") ∧ ∀ m, (1 : Nat).testBit (bit m) = false ∨ (2 ^ 3 : Nat).testBit (bit m) = false :=
  ⟨by decide, fun m => by cases m <;> decide⟩
example : ∃ k, Kqueue.run .start (only .write) = some k ∧ k.entry 3 .write = some "a" ∧ k.entry 3 .read = none ∧ k.isOpen 3 = true := ⟨_, rfl, by decide, by decide, by decide⟩

end Cora.Watch
