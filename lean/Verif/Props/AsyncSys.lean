import Verif.Model.AsyncSys
import Verif.Props.Async
import Verif.Props.Watch
/-
C98: the event loop on both systems.
-/
open Spec
namespace Cora.Async
variable {T K : Type}

/-- without the fields that stand for the kernel -/
def strip (L : Loop T) : Loop T := { L with poll := fun _ => none, closed := fun _ => false }

theorem strip_setCb (L : Loop T) (c : Nat) (m : Mode) (cb : Option (Cb T)) : (strip L).setCb c m cb = strip (L.setCb c m cb) := by cases m <;> rfl
theorem strip_notIn (L : Loop T) (c : Nat) : (strip L).notIn c = L.notIn c := rfl
theorem strip_setNext (L : Loop T) (r : Ref) (n : Option Nat) : (strip L).setNext r n = strip (L.setNext r n) := by cases r <;> rfl
theorem strip_setPrev (L : Loop T) (c : Nat) (r : Option Ref) : (strip L).setPrev c r = strip (L.setPrev c r) := rfl
theorem strip_upd (L : Loop T) (c : Nat) (f : Conn T → Conn T) : (strip L).upd c f = strip (L.upd c f) := rfl
theorem strip_spawn (L : Loop T) (t : T) : (strip L).spawn t = strip (L.spawn t) := rfl
theorem strip_pollAdd (L : Loop T) (c : Nat) (m : Mode) : strip (L.pollAdd c m) = strip L := by unfold Loop.pollAdd; split <;> rfl
theorem strip_pollMod (L : Loop T) (c : Nat) (ms : List Mode) : strip (L.pollMod c ms) = strip L := by unfold Loop.pollMod; split <;> rfl
theorem strip_addConn (L : Loop T) (c : Nat) : (strip L).addConn c = strip (L.addConn c) := by
  unfold Loop.addConn
  simp only [strip_setNext]
  have : (strip (L.setNext (.conn c) (strip L).head)).head = (L.setNext (.conn c) L.head).head := rfl
  cases h : (L.setNext (.conn c) L.head).head with
  | none => rw [this, h]; rfl
  | some d => rw [this, h]; rfl
theorem strip_delConn (L : Loop T) (c : Nat) : (strip L).delConn c = (L.delConn c).map strip := by
  unfold Loop.delConn
  have : ((strip L).conn c).prev = (L.conn c).prev := rfl
  rw [this]
  cases (L.conn c).prev with
  | none => rfl
  | some p =>
    simp only [Option.map_some]
    have e : (strip L).setNext p ((strip L).conn c).next = strip (L.setNext p (L.conn c).next) := strip_setNext ..
    rw [e]
    have : ((strip (L.setNext p (L.conn c).next)).conn c).next = ((L.setNext p (L.conn c).next).conn c).next := rfl
    rw [this]
    cases ((L.setNext p (L.conn c).next).conn c).next <;> rfl

theorem setCb_poll (L : Loop T) (c : Nat) (m : Mode) (cb : Option (Cb T)) : (L.setCb c m cb).poll = L.poll := by cases m <;> rfl
theorem setCb_mode (L : Loop T) (c d : Nat) (m : Mode) (cb : Option (Cb T)) : ((L.setCb c m cb).conn d).mode = (L.conn d).mode := by
  cases m <;> (simp only [Loop.setCb, upd_conn]; split <;> rfl)
theorem setCb_notIn (L : Loop T) (c d : Nat) (m : Mode) (cb : Option (Cb T)) : (L.setCb c m cb).notIn d = L.notIn d := by
  cases m <;> simp only [Loop.setCb, Loop.notIn, upd_conn] <;> split <;> rfl
theorem setNext_poll (L : Loop T) (r : Ref) (n : Option Nat) : (L.setNext r n).poll = L.poll ∧ (L.setNext r n).closed = L.closed := by cases r <;> exact ⟨rfl, rfl⟩
theorem addConn_poll (L : Loop T) (c : Nat) : (L.addConn c).poll = L.poll ∧ (L.addConn c).closed = L.closed := by
  unfold Loop.addConn
  simp only
  split <;> exact ⟨rfl, rfl⟩
theorem delConn_poll {L L' : Loop T} {c : Nat} (h : L.delConn c = some L') : L'.poll = L.poll ∧ L'.closed = L.closed := by
  unfold Loop.delConn at h
  split at h
  · cases h
  · rename_i p _
    simp only at h
    split at h
    · cases h; exact setNext_poll L p _
    · cases h; exact setNext_poll L p _

/-- `event-loop-add` goes together on both -/
theorem on_add {S : Sys K} {Rel : K → (Nat → Option (List Mode)) → (Nat → Bool) → Prop} {x : On T K} {L : Loop T} (hx : x.loop = strip L)
    (hr : Rel x.k L.poll L.closed) (c : Nat) (m : Mode) (cb : Cb T)
    (h1 : L.notIn c = true → ∃ k, S.add x.k c m = some k ∧ Rel k (L.pollAdd c m).poll L.closed)
    (h2 : L.notIn c = false → m ∉ (L.conn c).mode → ∃ k, S.mod x.k c (m :: (L.conn c).mode) = some k ∧ Rel k (L.pollMod c (m :: (L.conn c).mode)).poll L.closed) :
    ∃ y, x.add S c m cb = some y ∧ y.loop = strip (L.add c m cb) ∧ Rel y.k (L.add c m cb).poll (L.add c m cb).closed := by
  have hcl := add_closed L c m cb
  unfold On.add
  rw [hx, strip_setCb]
  simp only [strip_notIn, setCb_notIn]
  have hmode : ((strip (L.setCb c m (some cb))).conn c).mode = (L.conn c).mode := setCb_mode L c c m _
  rw [hmode]
  rw [hcl]
  unfold Loop.add
  simp only [setCb_notIn, setCb_mode]
  cases hn : L.notIn c with
  | true =>
    obtain ⟨k, e, hk⟩ := h1 hn
    simp only [if_true]
    rw [e]
    refine ⟨_, rfl, ?_, ?_⟩
    · simp only
      rw [strip_addConn, strip_upd, ← strip_upd _ c, ← strip_upd (Loop.pollAdd _ _ _), strip_pollAdd]
    · have e1 : ∀ M : Loop T, M.poll = L.poll → M.closed = L.closed → (M.pollAdd c m).poll = (L.pollAdd c m).poll := by
        intro M p q
        unfold Loop.pollAdd
        rw [p, q]
        split <;> simp [p]
      show Rel k (Loop.pollAdd _ _ _).poll _
      rw [e1 _ ((addConn_poll _ _).1.trans (setCb_poll ..)) ((addConn_poll _ _).2.trans (setCb_rest L c m _).1)]
      exact hk
  | false =>
    simp only [Bool.false_eq_true, if_false]
    by_cases hm : m ∈ (L.conn c).mode
    · rw [if_pos hm, if_pos hm]
      exact ⟨_, rfl, rfl, by rw [setCb_poll]; exact hr⟩
    · rw [if_neg hm, if_neg hm]
      obtain ⟨k, e, hk⟩ := h2 hn hm
      rw [e]
      refine ⟨_, rfl, ?_, ?_⟩
      · simp only
        rw [strip_upd, ← strip_upd _ c, ← strip_upd (Loop.pollMod _ _ _), strip_pollMod]
      · have e1 : ∀ M : Loop T, M.poll = L.poll → (M.pollMod c (m :: (L.conn c).mode)).poll = (L.pollMod c (m :: (L.conn c).mode)).poll := by
          intro M p
          unfold Loop.pollMod
          rw [p]
          split <;> simp [p]
        show Rel k (Loop.pollMod _ _ _).poll _
        rw [e1 _ (setCb_poll ..)]
        exact hk

/-- `conn-close` goes together on both -/
theorem on_close {S : Sys K} {Rel : K → (Nat → Option (List Mode)) → (Nat → Bool) → Prop} {x : On T K} {L L' : Loop T} (hx : x.loop = strip L)
    (c : Nat) (hL : L.close c = some L')
    (h1 : ∃ k, S.close x.k c = some k ∧ Rel k (L.pollDel c).poll (L.pollDel c).closed)
    (h2 : ∃ k0 k, S.del x.k c = some k0 ∧ S.close k0 c = some k ∧ Rel k (L.pollDel c).poll (L.pollDel c).closed) :
    ∃ y, x.close S c = some y ∧ y.loop = strip L' ∧ Rel y.k L'.poll L'.closed := by
  unfold On.close
  rw [hx, strip_notIn]
  unfold Loop.close at hL
  cases hn : L.notIn c with
  | true =>
    rw [hn] at hL
    cases hL
    obtain ⟨k, e, hk⟩ := h1
    exact ⟨⟨strip L, k⟩, by simp [e], rfl, hk⟩
  | false =>
    rw [hn] at hL
    simp only [Bool.false_eq_true, if_false] at hL ⊢
    obtain ⟨k0, k, e0, e, hk⟩ := h2
    have hd : (strip L).delConn c = some (strip L') := by
      have : strip L = strip (L.pollDel c) := rfl
      rw [this, strip_delConn, hL]; rfl
    obtain ⟨p1, p2⟩ := delConn_poll hL
    exact ⟨⟨strip L', k⟩, by simp [e0, e, hd], rfl, by rw [p1, p2]; exact hk⟩

/-! ### Linux -/

/-- the table of the kernel holds what is watched -/
structure RelE (k : Watch.Epoll.Kernel Nat) (poll : Nat → Option (List Mode)) (closed : Nat → Bool) : Prop where
  isOpen : ∀ c, k.isOpen c = !closed c
  entry : ∀ c, (poll c = none ∧ k.entry c = none) ∨ ∃ ms e, poll c = some ms ∧ k.entry c = some (e, c) ∧ ∀ m, e.testBit (Watch.bit (Mode.watch m)) = decide (m ∈ ms)

theorem relE_none {k : Watch.Epoll.Kernel Nat} {poll closed} (h : RelE k poll closed) (c : Nat) : (k.entry c).isNone = (poll c).isNone := by
  rcases h.entry c with ⟨h1, h2⟩ | ⟨_, _, h1, h2, _⟩ <;> rw [h1, h2] <;> rfl
theorem relE_some {k : Watch.Epoll.Kernel Nat} {poll closed} (h : RelE k poll closed) (c : Nat) : (k.entry c).isSome = (poll c).isSome := by
  rcases h.entry c with ⟨h1, h2⟩ | ⟨_, _, h1, h2, _⟩ <;> rw [h1, h2] <;> rfl

theorem relE_set {k : Watch.Epoll.Kernel Nat} {poll closed} (h : RelE k poll closed) (c e : Nat) (ms : List Mode)
    (he : ∀ m, e.testBit (Watch.bit (Mode.watch m)) = decide (m ∈ ms)) : RelE (k.set c (some (e, c))) (fun d => if d = c then some ms else poll d) closed := by
  refine ⟨h.isOpen, fun d => ?_⟩
  simp only [Watch.Epoll.Kernel.set]
  by_cases hd : d = c
  · subst hd; exact .inr ⟨ms, e, by simp, by simp, he⟩
  · simpa [hd] using h.entry d

theorem watch_mem (m : Mode) (ms : List Mode) : (some (Mode.watch m) ∈ ms.map fun m => some (Mode.watch m)) ↔ m ∈ ms := by
  rw [List.mem_map]
  constructor
  · rintro ⟨a, h1, h2⟩
    cases a <;> cases m <;> first | exact h1 | cases h2
  · intro h; exact ⟨m, h, rfl⟩

theorem relE_add {k : Watch.Epoll.Kernel Nat} {L : Loop T} (h : RelE k L.poll L.closed) (c : Nat) (m : Mode) :
    ∃ k', epollSys.add k c m = some k' ∧ RelE k' (L.pollAdd c m).poll L.closed := by
  refine ⟨_, rfl, ?_⟩
  have e : Watch.Epoll.step k (.add c (Mode.watch m) c) = Watch.Epoll.ctlAdd k c (2 ^ Watch.bit (Mode.watch m)) c := by cases m <;> rfl
  rw [e]
  unfold Watch.Epoll.ctlAdd Loop.pollAdd
  rw [h.isOpen, relE_none h, Bool.and_comm]
  split
  · refine relE_set h c _ [m] fun n => ?_
    cases m <;> cases n <;> decide
  · exact h

theorem relE_mod {k : Watch.Epoll.Kernel Nat} {L : Loop T} (h : RelE k L.poll L.closed) (c : Nat) (ms : List Mode) :
    ∃ k', epollSys.mod k c ms = some k' ∧ RelE k' (L.pollMod c ms).poll L.closed := by
  refine ⟨_, rfl, ?_⟩
  show RelE (Watch.Epoll.ctlMod k c _ c) _ _
  unfold Watch.Epoll.ctlMod Loop.pollMod
  rw [relE_some h]
  split
  · refine relE_set h c _ ms fun n => ?_
    rw [Watch.newMode_bit, Nat.zero_testBit, Bool.false_or]
    simp only [watch_mem]
  · exact h

theorem relE_close {k : Watch.Epoll.Kernel Nat} {L : Loop T} (h : RelE k L.poll L.closed) (c : Nat) :
    RelE (Watch.Epoll.step k (.closed c)) (L.pollDel c).poll (L.pollDel c).closed := by
  refine ⟨fun d => ?_, fun d => ?_⟩
  · simp only [Watch.Epoll.step, Loop.pollDel]
    by_cases hd : d = c <;> simp [hd, h.isOpen]
  · simp only [Watch.Epoll.step, Loop.pollDel, Watch.Epoll.Kernel.set]
    by_cases hd : d = c
    · simp [hd]
    · simpa [hd] using h.entry d

theorem relE_del {k : Watch.Epoll.Kernel Nat} (c : Nat) : Watch.Epoll.step (Watch.Epoll.step k (.del c)) (.closed c) = Watch.Epoll.step k (.closed c) := by
  simp only [Watch.Epoll.step, Watch.Epoll.pollCtlDel, Watch.Epoll.ctlDel]
  split
  · simp only [Watch.Epoll.Kernel.set, Watch.Epoll.Kernel.mk.injEq, true_and]
    funext y
    split <;> rfl
  · rfl

theorem relE_reports {k : Watch.Epoll.Kernel Nat} {poll closed} (h : RelE k poll closed) (c : Nat) (m : Mode) :
    epollSys.reports k c m = decide (m ∈ (poll c).getD []) := by
  have hb : epollSys.reports k c m = ((Watch.Epoll.poll k (fun fd => if fd = c then 2 ^ Watch.bit (Mode.watch m) else 0) [.events [c]]).getD []).contains (c, Mode.watch m) := by
    cases m <;> rfl
  rw [hb]
  simp only [Watch.Epoll.poll]
  rcases h.entry c with ⟨h1, h2⟩ | ⟨ms, e, h1, h2, h3⟩
  · have : Watch.Epoll.eventOf k (fun fd => if fd = c then 2 ^ Watch.bit (Mode.watch m) else 0) c = none := by rw [Watch.Epoll.eventOf, h2]
    rw [List.filterMap_cons_none this, h1]
    rfl
  · rw [h1]
    show _ = decide (m ∈ ms)
    rw [← h3 m]
    have hbit : ∀ j, ((e ||| Watch.Epoll.always) &&& 2 ^ Watch.bit (Mode.watch m)).testBit j = (e.testBit (Watch.bit (Mode.watch m)) && decide (Watch.bit (Mode.watch m) = j)) := by
      intro j
      rw [Nat.testBit_and, Nat.testBit_or, Nat.testBit_two_pow]
      by_cases hj : Watch.bit (Mode.watch m) = j
      · subst hj; rw [Watch.always_bit]; simp
      · simp [hj]
    cases he : e.testBit (Watch.bit (Mode.watch m)) with
    | false =>
      have hz : (e ||| Watch.Epoll.always) &&& 2 ^ Watch.bit (Mode.watch m) = 0 := Nat.eq_of_testBit_eq fun j => by rw [hbit, he]; simp
      have : Watch.Epoll.eventOf k (fun fd => if fd = c then 2 ^ Watch.bit (Mode.watch m) else 0) c = none := by rw [Watch.Epoll.eventOf, h2]; simp [hz]
      rw [List.filterMap_cons_none this]
      rfl
    | true =>
      have hz : (e ||| Watch.Epoll.always) &&& 2 ^ Watch.bit (Mode.watch m) = 2 ^ Watch.bit (Mode.watch m) :=
        Nat.eq_of_testBit_eq fun j => by rw [hbit, he, Nat.testBit_two_pow]; simp
      have : Watch.Epoll.eventOf k (fun fd => if fd = c then 2 ^ Watch.bit (Mode.watch m) else 0) c = some (2 ^ Watch.bit (Mode.watch m), c) := by
        rw [Watch.Epoll.eventOf, h2]; simp [hz]
      rw [List.filterMap_cons_some this, List.filterMap_nil, List.take_of_length_le (by simp)]
      cases m <;> simp [Watch.bit, Mode.watch, Watch.Epoll.answer, Watch.Epoll.EPOLLIN, Watch.Epoll.EPOLLOUT]

theorem on_event_eq (S : Sys K) (x : On T K) (c : Nat) (m : Mode) (b : Bool) :
    x.event S c m b = if S.reports x.k c m then (match x.loop.cb c m with | none => some x | some cb => x.call S c b cb) else some x := by
  cases m <;> rfl

/-- the event loop with `epoll.c` does what the event loop of C63 does -/
theorem epoll_step {x : On T (Watch.Epoll.Kernel Nat)} {L L' : Loop T} (hx : x.loop = strip L) (hr : RelE x.k L.poll L.closed) {op : LoopOp T}
    (hs : step L op = some L') : ∃ y, stepOn epollSys x op = some y ∧ y.loop = strip L' ∧ RelE y.k L'.poll L'.closed := by
  have add : ∀ c m cb, ∃ y, x.add epollSys c m cb = some y ∧ y.loop = strip (L.add c m cb) ∧ RelE y.k (L.add c m cb).poll (L.add c m cb).closed :=
    fun c m cb => on_add hx hr c m cb (fun _ => relE_add hr c m) (fun _ _ => relE_mod hr c _)
  cases op with
  | recv c t => cases hs; exact add ..
  | accept c t => cases hs; exact add ..
  | send c t => cases hs; exact add ..
  | close c => exact on_close hx c hs ⟨_, rfl, relE_close hr c⟩ ⟨_, _, rfl, rfl, by rw [relE_del]; exact relE_close hr c⟩
  | ready c m b =>
    cases hs
    rw [event_eq]
    simp only [stepOn, on_event_eq, relE_reports hr]
    have clear : ∀ (m : Mode) (t : T), ∃ y, (some ⟨(x.loop.setCb c m none).spawn t, x.k⟩ : Option (On T _)) = some y ∧
        y.loop = strip ((L.setCb c m none).spawn t) ∧ RelE y.k ((L.setCb c m none).spawn t).poll ((L.setCb c m none).spawn t).closed := by
      intro m t
      refine ⟨_, rfl, by rw [hx, strip_setCb, strip_spawn], ?_⟩
      show RelE x.k (L.setCb c m none).poll (L.setCb c m none).closed
      rw [setCb_poll, (setCb_rest L c m none).1]
      exact hr
    have hcb : x.loop.cb c m = L.cb c m := by rw [hx]; cases m <;> rfl
    rw [hcb]
    by_cases hm : m ∈ (L.poll c).getD []
    · simp only [hm, decide_true, if_true]
      cases L.cb c m with
      | none => exact ⟨x, rfl, hx, hr⟩
      | some cb =>
        cases cb with
        | recv t =>
          simp only [On.call, On.recvHandler, Loop.call, Loop.recvHandler]
          split
          · exact add ..
          · exact clear ..
        | accept t => exact clear ..
        | send t =>
          simp only [On.call, On.sendHandler, Loop.call, Loop.sendHandler]
          split
          · exact add ..
          · have hmode : ((x.loop.setCb c .write none).conn c).mode = ((L.setCb c .write none).conn c).mode := by rw [hx, strip_setCb]; rfl
            rw [hmode]
            have hr' : RelE x.k (L.setCb c .write none).poll (L.setCb c .write none).closed := hr
            obtain ⟨k, e, hk⟩ := relE_mod hr' c (((L.setCb c .write none).conn c).mode.filter (· ≠ .write))
            rw [e]
            refine ⟨_, rfl, ?_, ?_⟩
            · simp only
              rw [hx, strip_setCb, strip_spawn, ← strip_spawn (Loop.pollMod _ _ _), strip_pollMod, strip_spawn]
            · show RelE k (Loop.pollMod _ _ _).poll (Loop.pollMod _ _ _).closed
              rw [pollMod_closed]
              exact hk
    · simp only [hm, decide_false, Bool.false_eq_true, if_false]
      exact ⟨x, rfl, hx, hr⟩

theorem epoll_run : ∀ {ops : List (LoopOp T)} {x : On T (Watch.Epoll.Kernel Nat)} {L L' : Loop T}, x.loop = strip L → RelE x.k L.poll L.closed →
    run L ops = some L' → ∃ y, runOn epollSys x ops = some y ∧ y.loop = strip L' ∧ RelE y.k L'.poll L'.closed
  | [], x, _, _, hx, hr, h => by cases h; exact ⟨x, rfl, hx, hr⟩
  | op :: ops, x, L, L', hx, hr, h => by
    rw [run] at h
    cases hs : step L op with
    | none => rw [hs] at h; cases h
    | some L1 =>
      rw [hs] at h
      obtain ⟨y, e, hy, hk⟩ := epoll_step hx hr hs
      obtain ⟨z, e2, hz⟩ := epoll_run hy hk h
      exact ⟨z, by rw [runOn, e]; exact e2, hz⟩

/-- nothing happened yet -/
def On.start (S : Sys K) : On T K := ⟨.init, S.start⟩

/-- **C98** on Linux: what holds. The event loop, with the C code of `epoll.c` and the table of the kernel, wakes the tasks that should be woken, in the
order, and keeps the others; and `net-poll` reports a connection that is open, that a task waits for and that becomes ready. For every history in
which one task at a time waits for a connection and a mode, and in which nobody waits to send on a connection that was ready for writing
before. Missing: histories with a second send, which is not woken (`C98_epoll_second_wrong`). -/
theorem C98_epoll_partial (ops : List (LoopOp T)) (h1 : OneEach ops) (h2 : FirstSends ops) :
    ∃ x, runOn epollSys (.start epollSys) ops = some x ∧ x.loop.ready = (waiting ops).woken ∧
      (∀ c, (x.loop.conn c).rcb = ((waiting ops).tasks c .read).head?.map (cbOf .read)) ∧
      (∀ c, (x.loop.conn c).wcb = ((waiting ops).tasks c .write).head?.map (cbOf .write)) ∧
      (∀ c m, (waiting ops).closed c = false → (waiting ops).tasks c m ≠ [] → epollReports x.k c m = true) := by
  obtain ⟨L, e, g1, g2, g3, g4⟩ := C63_wakes_partial ops h1 h2
  obtain ⟨x, e2, hx, hk⟩ := epoll_run (x := .start epollSys) (L := Loop.init) rfl ⟨fun _ => rfl, fun _ => .inl ⟨rfl, rfl⟩⟩ e
  refine ⟨x, e2, by rw [hx]; exact g1, fun c => by rw [hx]; exact g2 c, fun c => by rw [hx]; exact g3 c, fun c m ho hw => ?_⟩
  have := relE_reports hk c m
  rw [decide_eq_true (g4 c m ho hw)] at this
  exact this

/-! ### BSD and macOS -/

/-- the event loop of C63, where the connection stays watched when a send is done -/
def Loop.eventK (L : Loop T) (c : Nat) (m : Mode) (b : Bool) : Loop T :=
  if m ∈ (L.poll c).getD [] then
    match L.cb c m with
    | none => L
    | some (.send t) => if b then L.add c .write (.send t) else (L.setCb c .write none).spawn t
    | some cb => L.call c b cb
  else L

def stepK (L : Loop T) : LoopOp T → Option (Loop T)
  | .ready c m b => some (L.eventK c m b)
  | op => step L op

def runK (L : Loop T) : List (LoopOp T) → Option (Loop T)
  | [] => some L
  | o :: r => do runK (← stepK L o) r

/-- what is watched is what the connection says -/
structure Exact (L : Loop T) : Prop where
  same : ∀ c ms, L.poll c = some ms → ms = (L.conn c).mode
  nodup : ∀ c, (L.conn c).mode.Nodup

theorem addConn_mode (L : Loop T) (c d : Nat) : ((L.addConn c).conn d).mode = (L.conn d).mode := by
  unfold Loop.addConn
  simp only
  split <;> simp only [Loop.setPrev, Loop.setNext, upd_conn] <;> (repeat' split) <;> rfl

theorem delConn_mode {L L' : Loop T} {c : Nat} (h : L.delConn c = some L') (d : Nat) : (L'.conn d).mode = (L.conn d).mode := by
  have hs : ∀ (M : Loop T) p n, ((M.setNext p n).conn d).mode = (M.conn d).mode := by
    intro M p n; cases p <;> simp only [Loop.setNext, upd_conn] <;> (try split) <;> rfl
  have hp : ∀ (M : Loop T) e r, ((M.setPrev e r).conn d).mode = (M.conn d).mode := by
    intro M e r; simp only [Loop.setPrev, upd_conn]; split <;> rfl
  unfold Loop.delConn at h
  split at h
  · cases h
  · simp only at h
    split at h
    · cases h; rw [hp, hs, hs]
    · cases h; rw [hp, hs, hp, hs]

theorem exact_add {L : Loop T} (h : Exact L) (hout : ∀ c, L.notIn c = true → L.poll c = none) (c : Nat) (m : Mode) (cb : Cb T) : Exact (L.add c m cb) := by
  unfold Loop.add
  simp only [setCb_notIn, setCb_mode]
  split
  · rename_i hn
    constructor
    · intro d ms hd
      have hd : ((Loop.addConn (L.setCb c m (some cb)) c).pollAdd c m).poll d = some ms := hd
      rw [upd_conn]
      have hpl : (Loop.addConn (L.setCb c m (some cb)) c).poll = L.poll := ((addConn_poll _ _).1.trans (setCb_poll ..))
      have hmd : (((Loop.addConn (L.setCb c m (some cb)) c).pollAdd c m).conn d).mode = (L.conn d).mode := by
        unfold Loop.pollAdd
        split <;> exact (addConn_mode _ _ _).trans (setCb_mode ..)
      unfold Loop.pollAdd at hd
      by_cases e : d = c
      · subst e
        rw [if_pos rfl]
        split at hd
        · simp only [if_true] at hd
          exact (Option.some.inj hd).symm
        · rw [hpl, hout d hn] at hd; cases hd
      · rw [if_neg e, hmd]
        split at hd
        · simp only [if_neg e] at hd
          rw [hpl] at hd
          exact h.same d ms hd
        · rw [hpl] at hd
          exact h.same d ms hd
    · intro d
      rw [upd_conn]
      split
      · simp
      · have : (((Loop.addConn (L.setCb c m (some cb)) c).pollAdd c m).conn d).mode = (L.conn d).mode := by
          unfold Loop.pollAdd
          split <;> exact (addConn_mode _ _ _).trans (setCb_mode ..)
        rw [this]; exact h.nodup d
  · split
    · exact ⟨fun d ms hd => by rw [setCb_mode]; rw [setCb_poll] at hd; exact h.same d ms hd, fun d => by rw [setCb_mode]; exact h.nodup d⟩
    · rename_i hm
      constructor
      · intro d ms hd
        have hd : (Loop.pollMod (L.setCb c m (some cb)) c (m :: (L.conn c).mode)).poll d = some ms := hd
        rw [upd_conn]
        unfold Loop.pollMod at hd
        split at hd
        · simp only at hd
          split at hd
          · rename_i e; rw [if_pos e]; cases hd; rfl
          · rename_i e
            rw [if_neg e, pollMod_conn, setCb_mode]
            rw [setCb_poll] at hd
            exact h.same d ms hd
        · rename_i hn
          split
          · rename_i e
            subst e
            rw [hd] at hn
            simp at hn
          · rw [pollMod_conn, setCb_mode]
            rw [setCb_poll] at hd
            exact h.same d ms hd
      · intro d
        rw [upd_conn]
        split
        · exact List.nodup_cons.mpr ⟨hm, h.nodup c⟩
        · rw [pollMod_conn, setCb_mode]; exact h.nodup d

theorem exact_close {L L' : Loop T} (h : Exact L) {c : Nat} (hc : L.close c = some L') : Exact L' := by
  have hd : Exact (L.pollDel c) := by
    refine ⟨fun d ms hm => ?_, h.nodup⟩
    simp only [Loop.pollDel] at hm
    split at hm
    · cases hm
    · exact h.same d ms hm
  unfold Loop.close at hc
  split at hc
  · cases hc; exact hd
  · exact ⟨fun d ms hm => by rw [delConn_mode hc]; rw [(delConn_poll hc).1] at hm; exact hd.same d ms hm, fun d => by rw [delConn_mode hc]; exact hd.nodup d⟩

theorem exact_clear {L : Loop T} (h : Exact L) (c : Nat) (m : Mode) (t : T) : Exact ((L.setCb c m none).spawn t) :=
  ⟨fun d ms hd => by
      have hd : (L.setCb c m none).poll d = some ms := hd
      rw [setCb_poll] at hd
      show ms = ((L.setCb c m none).conn d).mode
      rw [setCb_mode]; exact h.same d ms hd,
    fun d => by show ((L.setCb c m none).conn d).mode.Nodup; rw [setCb_mode]; exact h.nodup d⟩

/-- what holds of the event loop at all times -/
structure Fit (L : Loop T) (w : Waiting T) (l : List Nat) : Prop where
  inv : Inv L l []
  kinds : Kinds L
  exact : Exact L
  sim : Sim L w []

theorem Fit.out {L : Loop T} {w : Waiting T} {l : List Nat} (h : Fit L w l) : ∀ c, L.notIn c = true → L.poll c = none := by
  intro c hc
  cases hp : L.poll c with
  | none => rfl
  | some ms => exact absurd (h.inv.pollIn c ms hp).1 ((notIn_iff h.inv c).mp hc)

theorem fit_wait {L : Loop T} {w : Waiting T} {l : List Nat} (h : Fit L w l) {c : Nat} {m : Mode} {x : Bool × T}
    (h1 : w.tasks c m = []) (h3 : m = .write → x.1 = false) : Fit (L.add c m (cbOf m x)) (w.wait c m x) (if c ∈ l then l else c :: l) := by
  refine ⟨inv_add h.inv c m _, kinds_add h.kinds c m _ ?_ ?_, exact_add h.exact h.out c m _, sim_wait h.sim h1 (fun _ => by simp) h3⟩
  · rintro rfl t e
    obtain ⟨a, u⟩ := x
    cases a <;> cases e
  · rintro rfl; exact ⟨x.2, rfl⟩

/-- except when a send is done, an event does the same -/
theorem eventK_eq {L : Loop T} (hk : Kinds L) (c : Nat) (m : Mode) (b : Bool) (h : ¬ (m = .write ∧ b = false)) : L.eventK c m b = L.event c m b := by
  rw [event_eq]
  unfold Loop.eventK
  split
  · cases hcb : L.cb c m with
    | none => rfl
    | some cb =>
      cases cb with
      | send t =>
        cases m with
        | read => exact absurd hcb (hk.read c t)
        | write =>
          cases b with
          | true => rfl
          | false => exact absurd ⟨rfl, rfl⟩ h
      | recv t => rfl
      | accept t => rfl
  · rfl

theorem exact_event {L : Loop T} {w : Waiting T} {l : List Nat} (h : Fit L w l) (c : Nat) (m : Mode) (b : Bool) (hb : ¬ (m = .write ∧ b = false)) : Exact (L.event c m b) := by
  rw [event_eq]
  split
  · cases hcb : L.cb c m with
    | none => exact h.exact
    | some cb =>
      simp only
      cases cb with
      | recv t =>
        simp only [Loop.call, Loop.recvHandler]
        split
        · exact exact_add h.exact h.out ..
        · exact exact_clear h.exact ..
      | accept t => exact exact_clear h.exact ..
      | send t =>
        cases m with
        | read => exact absurd hcb (h.kinds.read c t)
        | write =>
          cases b with
          | true => exact exact_add h.exact h.out ..
          | false => exact absurd ⟨rfl, rfl⟩ hb
  · exact h.exact

theorem fit_eventK {L : Loop T} {w : Waiting T} {l : List Nat} (h : Fit L w l) (c : Nat) (m : Mode) (b : Bool) : Fit (L.eventK c m b) (w.ready c m b) l := by
  by_cases hb : m = .write ∧ b = false
  · obtain ⟨rfl, rfl⟩ := hb
    unfold Loop.eventK
    cases ht : w.tasks c .write with
    | nil =>
      have hcb : L.cb c .write = none := by rw [h.sim.cbs, ht]; rfl
      have hw : w.ready c .write false = w := by simp [Waiting.ready, ht]
      rw [hcb, hw]
      simp only [ite_self]
      exact h
    | cons x r =>
      have hr : r = [] := by
        have := h.sim.one c .write
        rw [ht] at this
        cases r with
        | nil => rfl
        | cons _ _ => simp at this
      subst hr
      have hcb : L.cb c .write = some (.send x.2) := by rw [h.sim.cbs, ht]; rfl
      rw [hcb]
      cases hcl : w.closed c with
      | true =>
        have hp : L.poll c = none := by
          cases hp : L.poll c with
          | none => rfl
          | some ms =>
            have := (h.inv.pollIn c ms hp).2.1
            rw [h.sim.closed, hcl] at this
            cases this
        have hw : w.ready c .write false = w := by simp [Waiting.ready, ht, hcl]
        rw [hp, hw]
        exact h
      | false =>
        rw [if_pos (watched h.inv h.sim hcl (by rw [ht]; simp))]
        have hw : w.ready c .write false = { w with tasks := fun d n => if d = c ∧ n = .write then [] else w.tasks d n, woken := w.woken ++ [x.2] } := by
          simp [Waiting.ready, ht, hcl]
        rw [hw]
        exact ⟨inv_clear h.inv c x.2 .write, kinds_clear h.kinds c .write x.2, exact_clear h.exact c .write x.2,
          sim_done h.sim ht (fun d n => by cases n <;> rfl) rfl rfl (fun d hd => by cases hd)⟩
  · rw [eventK_eq h.kinds c m b hb]
    have hs : LoopOp.sent (.ready c m b : LoopOp T) ++ [] = [] := by cases m <;> cases b <;> first | rfl | exact absurd ⟨rfl, rfl⟩ hb
    obtain ⟨h1, h2⟩ := inv_event h.inv h.kinds c m b
    have h3 := sim_ready h.inv h.sim c m b
    rw [hs] at h1 h3
    exact ⟨h1, h2, exact_event h c m b hb, h3⟩

theorem fit_close {L : Loop T} {w : Waiting T} {l : List Nat} (h : Fit L w l) (c : Nat) :
    ∃ L', L.close c = some L' ∧ Fit L' (w.step (.close c)) (l.erase c) := by
  obtain ⟨L', g1, g2, g3, g4⟩ := inv_close h.inv c
  have hcb : ∀ d m, L'.cb d m = L.cb d m := by
    intro d m
    cases m
    · exact (g3 d).1
    · exact (g3 d).2
  refine ⟨L', g1, g2, ⟨fun d t => ?_, fun d cb e => ?_⟩, exact_close h.exact g1, ⟨fun d m => by rw [hcb]; exact h.sim.cbs d m, h.sim.one, ?_, by rw [g4]; exact h.sim.ready,
    (fun d hd => by cases hd), h.sim.plain⟩⟩
  · rw [(g3 d).1]; exact h.kinds.read d t
  · rw [(g3 d).2] at e; exact h.kinds.write d cb e
  · rw [close_closed g1, h.sim.closed]; rfl

/-- the table of the kernel holds what is watched -/
structure RelQ (k : Watch.Kqueue.Kernel Nat) (poll : Nat → Option (List Mode)) (closed : Nat → Bool) : Prop where
  isOpen : ∀ c, k.isOpen c = !closed c
  entry : ∀ c m, k.entry c (Mode.watch m) = if m ∈ (poll c).getD [] then some c else none

theorem watch_inj {m n : Mode} (h : Mode.watch m = Mode.watch n) : m = n := by cases m <;> cases n <;> first | rfl | cases h

/-- changes that add -/
theorem kevent_adds (c : Nat) : ∀ (ms : List Mode) (k : Watch.Kqueue.Kernel Nat),
    (Watch.Kqueue.kevent k (ms.map fun m => .add c (Mode.watch m) c)).isOpen = k.isOpen ∧
      ∀ d n, (Watch.Kqueue.kevent k (ms.map fun m => .add c (Mode.watch m) c)).entry d (Mode.watch n) =
        if k.isOpen c = true ∧ d = c ∧ n ∈ ms then some c else k.entry d (Mode.watch n)
  | [], k => ⟨rfl, fun d n => by simp [Watch.Kqueue.kevent]⟩
  | m :: ms, k => by
    simp only [List.map_cons, Watch.Kqueue.kevent]
    split
    · rename_i ho
      obtain ⟨h1, h2⟩ := kevent_adds c ms (k.set c (Mode.watch m) (some c))
      refine ⟨h1, fun d n => ?_⟩
      rw [h2]
      have ho' : (k.set c (Mode.watch m) (some c)).isOpen c = true := ho
      simp only [ho', ho, true_and, Watch.Kqueue.Kernel.set]
      by_cases hd : d = c
      · by_cases hn : n = m
        · subst hn; simp [hd]
        · have : Mode.watch n ≠ Mode.watch m := fun e => hn (watch_inj e)
          simp [hd, hn, this]
      · simp [hd]
    · rename_i ho
      simp only [Bool.not_eq_true] at ho
      exact ⟨rfl, fun d n => by simp [ho]⟩

theorem changes_adds (c : Nat) : ∀ (ms : List Mode) (ev : List (Watch.Kqueue.Change Nat)), ev.length + ms.length ≤ 2 →
    Watch.Kqueue.changes c c (ms.map fun m => some (Mode.watch m)) ev = some (ev ++ ms.map fun m => .add c (Mode.watch m) c)
  | [], ev, _ => by simp [Watch.Kqueue.changes]
  | m :: ms, ev, h => by
    simp only [List.map_cons, Watch.Kqueue.changes]
    simp only [List.length_cons] at h
    rw [if_pos (by omega), changes_adds c ms _ (by simp; omega)]
    simp

/-- a mode list without repetitions is short -/
theorem modes_short {ms : List Mode} (h : ms.Nodup) : ms.length ≤ 2 :=
  List.Nodup.length_le_of_subset (l₂ := [.read, .write]) h fun m _ => by cases m <;> simp

theorem relQ_mod {k : Watch.Kqueue.Kernel Nat} {poll poll' closed} (h : RelQ k poll closed) (c : Nat) {ms : List Mode} (hn : ms.Nodup)
    (h0 : ∀ d, d ≠ c → poll' d = poll d) (h1 : ∀ n, closed c = false → (n ∈ (poll' c).getD [] ↔ n ∈ ms ∨ n ∈ (poll c).getD []))
    (h2 : closed c = true → poll' c = poll c) :
    ∃ k', kqueueSys.mod k c ms = some k' ∧ RelQ k' poll' closed := by
  obtain ⟨g1, g2⟩ := kevent_adds c ms k
  refine ⟨Watch.Kqueue.kevent k (ms.map fun m => .add c (Mode.watch m) c), ?_, fun d => by rw [g1]; exact h.isOpen d, fun d n => ?_⟩
  · show Watch.Kqueue.pollCtlMod k c _ c = _
    rw [Watch.Kqueue.pollCtlMod, changes_adds c ms [] (by simpa using modes_short hn)]
    rfl
  · rw [g2, h.entry, h.isOpen]
    by_cases hd : d = c
    · subst hd
      cases hc : closed d with
      | true => rw [h2 hc]; simp
      | false =>
        have := h1 n hc
        by_cases a : n ∈ ms <;> by_cases b : n ∈ (poll d).getD [] <;> simp_all
    · rw [h0 d hd]; simp [hd]

theorem relQ_add {k : Watch.Kqueue.Kernel Nat} {L : Loop T} (h : RelQ k L.poll L.closed) (c : Nat) (m : Mode) (hp : L.poll c = none) :
    ∃ k', kqueueSys.add k c m = some k' ∧ RelQ k' (L.pollAdd c m).poll L.closed := by
  have e : kqueueSys.add k c m = some (Watch.Kqueue.kevent k ([m].map fun m => .add c (Mode.watch m) c)) := by cases m <;> rfl
  obtain ⟨g1, g2⟩ := kevent_adds c [m] k
  refine ⟨_, e, fun d => by rw [g1]; exact h.isOpen d, fun d n => ?_⟩
  rw [g2, h.entry, h.isOpen]
  unfold Loop.pollAdd
  rw [hp]
  by_cases hd : d = c
  · subst hd
    cases hc : L.closed d <;> simp [hp]
  · cases hc : L.closed c <;> simp [hd]

theorem relQ_reports {k : Watch.Kqueue.Kernel Nat} {poll closed} (h : RelQ k poll closed) (c : Nat) (m : Mode) :
    kqueueSys.reports k c m = decide (m ∈ (poll c).getD []) := by
  have hr := h.entry c .read
  have hw := h.entry c .write
  show kqueueReports k c m = _
  simp only [Mode.watch] at hr hw
  cases m
  · by_cases a : Mode.read ∈ (poll c).getD [] <;>
      simp [kqueueReports, Watch.Kqueue.poll, Watch.Kqueue.eventsOf, Watch.Kqueue.answer, Mode.watch, hr, a]
  · by_cases a : Mode.write ∈ (poll c).getD [] <;>
      simp [kqueueReports, Watch.Kqueue.poll, Watch.Kqueue.eventsOf, Watch.Kqueue.answer, Mode.watch, hw, a]

/-- closing, also after `pollCtlDel` -/
theorem relQ_close {k k0 : Watch.Kqueue.Kernel Nat} {L : Loop T} (h : RelQ k L.poll L.closed) (c : Nat) (h1 : k0.isOpen = k.isOpen)
    (h2 : ∀ d n, d ≠ c → k0.entry d n = k.entry d n) :
    ∃ k', kqueueSys.close k0 c = some k' ∧ RelQ k' (L.pollDel c).poll (L.pollDel c).closed := by
  refine ⟨_, rfl, fun d => ?_, fun d n => ?_⟩
  · simp only [Loop.pollDel]
    by_cases hd : d = c
    · simp [hd]
    · simp [hd, h1, h.isOpen]
  · simp only [Loop.pollDel, Watch.Kqueue.Kernel.set]
    by_cases hd : d = c
    · cases n <;> simp [hd, Mode.watch]
    · simp [hd, h2 d _ hd, h.entry]

theorem kqueue_del (k : Watch.Kqueue.Kernel Nat) (c : Nat) : ∃ k0, kqueueSys.del k c = some k0 ∧ k0.isOpen = k.isOpen ∧ ∀ d n, d ≠ c → k0.entry d n = k.entry d n := by
  refine ⟨_, rfl, ?_, fun d n hd => ?_⟩
  · simp only [Watch.Kqueue.pollCtlDel, Watch.Kqueue.kevent]
    (repeat' split) <;> rfl
  · simp only [Watch.Kqueue.pollCtlDel, Watch.Kqueue.kevent]
    (repeat' split) <;> simp [Watch.Kqueue.Kernel.set, hd]

/-- the event loop with `kqueue.c` does what `stepK` does -/
theorem kqueue_step {x : On T (Watch.Kqueue.Kernel Nat)} {L : Loop T} {w : Waiting T} {l : List Nat} (hx : x.loop = strip L) (hr : RelQ x.k L.poll L.closed)
    (hf : Fit L w l) {op : LoopOp T} (h1 : ∀ c m t, op.waiter = some (c, m, t) → w.tasks c m = []) :
    ∃ y L', stepK L op = some L' ∧ stepOn kqueueSys x op = some y ∧ y.loop = strip L' ∧ RelQ y.k L'.poll L'.closed ∧ Fit L' (w.step op) (regStep l op) := by
  have add : ∀ c m cb, ∃ y, x.add kqueueSys c m cb = some y ∧ y.loop = strip (L.add c m cb) ∧ RelQ y.k (L.add c m cb).poll (L.add c m cb).closed := by
    refine fun c m cb => on_add hx hr c m cb (fun hn => relQ_add hr c m (hf.out c hn)) (fun hn hm => ?_)
    refine relQ_mod hr c (List.nodup_cons.mpr ⟨hm, hf.exact.nodup c⟩) (fun d hd => ?_) (fun n hc => ?_) (fun hc => ?_)
    · unfold Loop.pollMod; split <;> simp [hd]
    · have hin : c ∈ l := by
        by_cases e : c ∈ l
        · exact e
        · rw [(notIn_iff hf.inv c).mpr e] at hn; cases hn
      obtain ⟨ms, hms⟩ := hf.inv.inPoll c hin hc
      have := hf.exact.same c ms hms
      unfold Loop.pollMod
      simp only [hms, Option.isSome_some, if_true, Option.getD_some, ← this, List.mem_cons]
      constructor
      · intro e; exact .inl e
      · rintro (e | e)
        · exact e
        · exact .inr e
    · have : L.poll c = none := by
        cases hp : L.poll c with
        | none => rfl
        | some ms => have := (hf.inv.pollIn c ms hp).2.1; rw [hc] at this; cases this
      unfold Loop.pollMod
      simp [this]
  cases op with
  | recv c t =>
    obtain ⟨y, e, hy⟩ := add c .read (.recv t)
    exact ⟨y, _, rfl, e, hy.1, hy.2, fit_wait (x := (false, t)) hf (h1 c .read t rfl) (fun e => by cases e)⟩
  | accept c t =>
    obtain ⟨y, e, hy⟩ := add c .read (.accept t)
    exact ⟨y, _, rfl, e, hy.1, hy.2, fit_wait (x := (true, t)) hf (h1 c .read t rfl) (fun e => by cases e)⟩
  | send c t =>
    obtain ⟨y, e, hy⟩ := add c .write (.send t)
    exact ⟨y, _, rfl, e, hy.1, hy.2, fit_wait (x := (false, t)) hf (h1 c .write t rfl) (fun _ => rfl)⟩
  | close c =>
    obtain ⟨L', e, hf'⟩ := fit_close hf c
    obtain ⟨k0, d1, d2, d3⟩ := kqueue_del x.k c
    obtain ⟨k1, e1, hk1⟩ := relQ_close hr c d2 d3
    obtain ⟨k2, e2, hk2⟩ := relQ_close hr c (rfl : x.k.isOpen = x.k.isOpen) (fun _ _ _ => rfl)
    obtain ⟨y, e3, hy⟩ := on_close hx c e ⟨k2, e2, hk2⟩ ⟨k0, k1, d1, e1, hk1⟩
    exact ⟨y, L', e, e3, hy.1, hy.2, hf'⟩
  | ready c m b =>
    have hf' := fit_eventK hf c m b
    suffices h : ∃ y, stepOn kqueueSys x (.ready c m b) = some y ∧ y.loop = strip (L.eventK c m b) ∧ RelQ y.k (L.eventK c m b).poll (L.eventK c m b).closed by
      obtain ⟨y, e, hy⟩ := h
      exact ⟨y, _, rfl, e, hy.1, hy.2, hf'⟩
    simp only [stepOn, on_event_eq, relQ_reports hr]
    have clear : ∀ (m : Mode) (t : T) (k : Watch.Kqueue.Kernel Nat), RelQ k L.poll L.closed → ∃ y, (some ⟨(x.loop.setCb c m none).spawn t, k⟩ : Option (On T _)) = some y ∧
        y.loop = strip ((L.setCb c m none).spawn t) ∧ RelQ y.k ((L.setCb c m none).spawn t).poll ((L.setCb c m none).spawn t).closed := by
      intro m t k hk
      refine ⟨_, rfl, by rw [hx, strip_setCb, strip_spawn], ?_⟩
      show RelQ k (L.setCb c m none).poll (L.setCb c m none).closed
      rw [setCb_poll, (setCb_rest L c m none).1]
      exact hk
    unfold Loop.eventK
    have hcb : x.loop.cb c m = L.cb c m := by rw [hx]; cases m <;> rfl
    rw [hcb]
    by_cases hm : m ∈ (L.poll c).getD []
    · simp only [hm, decide_true, if_true]
      cases L.cb c m with
      | none => exact ⟨x, rfl, hx, hr⟩
      | some cb =>
        cases cb with
        | recv t =>
          simp only [On.call, On.recvHandler, Loop.call, Loop.recvHandler]
          split
          · exact add ..
          · exact clear _ _ _ hr
        | accept t => exact clear _ _ _ hr
        | send t =>
          simp only [On.call, On.sendHandler]
          split
          · exact add ..
          · have hmode : ((x.loop.setCb c .write none).conn c).mode = (L.conn c).mode := by
              rw [hx, strip_setCb]; exact setCb_mode L c c .write none
            rw [hmode]
            obtain ⟨k, e, hk⟩ := relQ_mod (poll' := L.poll) hr c ((hf.exact.nodup c).filter (fun n : Mode => decide (n ≠ Mode.write))) (fun _ _ => rfl) (fun n _ => by
              cases hp : L.poll c with
              | none => rw [hp] at hm; cases hm
              | some ms =>
                have := hf.exact.same c ms hp
                subst this
                simp only [Option.getD_some, List.mem_filter]
                constructor
                · intro e; exact .inr e
                · rintro (e | e)
                  · exact e.1
                  · exact e) (fun _ => rfl)
            rw [e]
            exact clear _ _ _ hk
    · simp only [hm, decide_false, Bool.false_eq_true, if_false]
      exact ⟨x, rfl, hx, hr⟩

theorem runOn_append (S : Sys K) (x : On T K) (a b : List (LoopOp T)) : runOn S x (a ++ b) = (runOn S x a).bind fun y => runOn S y b := by
  induction a generalizing x with
  | nil => rfl
  | cons o a ih =>
    simp only [List.cons_append, runOn]
    cases stepOn S x o with
    | none => rfl
    | some y => exact ih y

theorem kqueue_run (ops : List (LoopOp T)) (h : OneEach ops) :
    ∃ x L, runOn kqueueSys (.start kqueueSys) ops = some x ∧ x.loop = strip L ∧ RelQ x.k L.poll L.closed ∧ Fit L (waiting ops) (registered ops) := by
  induction ops using snocRec with
  | nil =>
    refine ⟨_, Loop.init, rfl, rfl, ⟨fun _ => rfl, fun _ _ => by simp [Loop.init, On.start, kqueueSys]⟩, inv_init, ⟨(fun _ _ h => by cases h), (fun _ _ h => by cases h)⟩,
      ⟨fun _ _ h => (by cases h), fun _ => List.nodup_nil⟩, ?_, ?_, rfl, rfl, (fun _ h => by cases h), (fun _ _ h => by cases h)⟩
    · intro c m; cases m <;> rfl
    · intro c m; simp [waiting, Waiting.none]
  | append_singleton ops op ih =>
    obtain ⟨x, L, e, hx, hr, hf⟩ := ih (OneEach.front h)
    obtain ⟨y, L', _, e2, hy, hr', hf'⟩ := kqueue_step hx hr hf (op := op) (fun c m t hw => h ops op [] c m t rfl hw)
    refine ⟨y, L', ?_, hy, hr', by rw [waiting_snoc, registered_snoc]; exact hf'⟩
    rw [runOn_append, e]
    simp [runOn, e2]

/-- **C98** on BSD and macOS: the event loop, with the C code of `kqueue.c` and the table of the kernel, wakes the tasks that should be woken, in the
order, and keeps the others; the C code does not write behind its array; and `net-poll` reports a connection that is open, that a task waits for
and that becomes ready. For every history in which one task at a time waits for a connection and a mode; second sends are woken here. -/
theorem C98_kqueue (ops : List (LoopOp T)) (h : OneEach ops) :
    ∃ x, runOn kqueueSys (.start kqueueSys) ops = some x ∧ x.loop.ready = (waiting ops).woken ∧
      (∀ c, (x.loop.conn c).rcb = ((waiting ops).tasks c .read).head?.map (cbOf .read)) ∧
      (∀ c, (x.loop.conn c).wcb = ((waiting ops).tasks c .write).head?.map (cbOf .write)) ∧
      (∀ c m, (waiting ops).closed c = false → (waiting ops).tasks c m ≠ [] → kqueueReports x.k c m = true) := by
  obtain ⟨x, L, e, hx, hr, hf⟩ := kqueue_run ops h
  refine ⟨x, e, by rw [hx]; exact hf.sim.ready, fun c => by rw [hx]; exact hf.sim.cbs c .read, fun c => by rw [hx]; exact hf.sim.cbs c .write, fun c m ho hw => ?_⟩
  have := relQ_reports hr c m
  rw [decide_eq_true (watched hf.inv hf.sim ho hw)] at this
  exact this

/-! ### what does not hold -/

/-- on Linux a task that waits to send on a connection on which a waiting send was completed before is never woken: `net-poll` does not report the
connection when it becomes ready -/
theorem C98_epoll_second_wrong :
    let ops := [LoopOp.send 0 "first", .ready 0 .write false, .send 0 "second"]
    OneEach ops ∧ (waiting ops).tasks 0 .write = [(false, "second")] ∧ (waiting ops).closed 0 = false ∧
      ∃ x, runOn epollSys (.start epollSys) ops = some x ∧ epollReports x.k 0 .write = false ∧ x.loop.ready = ["first"] ∧
        ∀ b, stepOn epollSys x (.ready 0 .write b) = some x := by
  refine ⟨C63_second_send_wrong.1, rfl, rfl, _, rfl, by decide +kernel, rfl, fun b => ?_⟩
  simp only [stepOn, on_event_eq]
  rw [if_neg (by decide +kernel)]

theorem mode_add {L : Loop T} {c : Nat} (hn : L.notIn c = false) (hm : Mode.write ∈ (L.conn c).mode) (d : Nat) (m : Mode) (cb : Cb T) :
    Mode.write ∈ ((L.add d m cb).conn c).mode := by
  unfold Loop.add
  simp only [setCb_notIn, setCb_mode]
  split
  · rename_i hd
    rw [upd_conn, if_neg (by rintro rfl; rw [hd] at hn; cases hn)]
    have : ((Loop.pollAdd (Loop.addConn (L.setCb d m (some cb)) d) d m).conn c).mode = (L.conn c).mode := by
      unfold Loop.pollAdd
      split <;> exact (addConn_mode _ _ _).trans (setCb_mode ..)
    rw [this]; exact hm
  · split
    · rw [setCb_mode]; exact hm
    · rw [upd_conn]
      split
      · rename_i e; subst e; exact List.mem_cons_of_mem _ hm
      · rw [pollMod_conn, setCb_mode]; exact hm

theorem mode_new {L : Loop T} (c : Nat) (m : Mode) (cb : Cb T) : m ∈ ((L.add c m cb).conn c).mode := by
  unfold Loop.add
  simp only [setCb_notIn, setCb_mode]
  split
  · rw [upd_conn, if_pos rfl]; simp
  · split
    · rename_i h; rw [setCb_mode]; exact h
    · rw [upd_conn, if_pos rfl]; simp

/-- what is waited for stays in the modes -/
theorem mode_step {L L' : Loop T} {c : Nat} (hn : L.notIn c = false) (hm : Mode.write ∈ (L.conn c).mode) {op : LoopOp T} (hs : stepK L op = some L') :
    Mode.write ∈ (L'.conn c).mode := by
  have clear : ∀ (d : Nat) (m : Mode) (t : T), Mode.write ∈ (((L.setCb d m none).spawn t).conn c).mode := by
    intro d m t
    show _ ∈ ((L.setCb d m none).conn c).mode
    rw [setCb_mode]; exact hm
  cases op with
  | recv d t => cases hs; exact mode_add hn hm ..
  | accept d t => cases hs; exact mode_add hn hm ..
  | send d t => cases hs; exact mode_add hn hm ..
  | close d =>
    have hs : L.close d = some L' := hs
    unfold Loop.close at hs
    split at hs
    · cases hs; exact hm
    · rw [delConn_mode hs]; exact hm
  | ready d m b =>
    cases hs
    unfold Loop.eventK
    split
    · cases L.cb d m with
      | none => exact hm
      | some cb =>
        cases cb with
        | recv t => simp only [Loop.call, Loop.recvHandler]; split <;> first | exact mode_add hn hm .. | exact clear ..
        | accept t => exact clear ..
        | send t => simp only; split <;> first | exact mode_add hn hm .. | exact clear ..
    · exact hm

theorem closed_snoc {ops : List (LoopOp T)} {c : Nat} (hc : LoopOp.close c ∉ ops) : (waiting ops).closed c = false := by
  induction ops using snocRec with
  | nil => rfl
  | append_singleton ops op ih =>
    have ih := ih (fun h => hc (List.mem_append_left _ h))
    rw [waiting_snoc]
    cases op with
    | recv d t => exact ih
    | accept d t => exact ih
    | send d t => exact ih
    | ready d m b =>
      show (Waiting.ready _ _ _ _).closed c = false
      unfold Waiting.ready
      split
      · exact ih
      · split <;> exact ih
    | close d =>
      simp only [Waiting.step]
      rw [if_neg (by rintro rfl; exact hc (by simp))]
      exact ih

theorem kqueue_noise (ops : List (LoopOp T)) (h : OneEach ops) {c : Nat} {t : T} (hs : LoopOp.send c t ∈ ops) (hc : LoopOp.close c ∉ ops) :
    ∃ x L, runOn kqueueSys (.start kqueueSys) ops = some x ∧ x.loop = strip L ∧ RelQ x.k L.poll L.closed ∧ Fit L (waiting ops) (registered ops) ∧
      c ∈ registered ops ∧ Mode.write ∈ (L.conn c).mode := by
  induction ops using snocRec with
  | nil => cases hs
  | append_singleton ops op ih =>
    have hc' : LoopOp.close c ∉ ops := fun h => hc (List.mem_append_left _ h)
    by_cases hs' : LoopOp.send c t ∈ ops
    · obtain ⟨x, L, e, hx, hr, hf, hin, hm⟩ := ih (OneEach.front h) hs' hc'
      obtain ⟨y, L', e1, e2, hy, hr', hf'⟩ := kqueue_step hx hr hf (op := op) (fun c m t hw => h ops op [] c m t rfl hw)
      have hn : L.notIn c = false := by
        cases hn : L.notIn c with
        | false => rfl
        | true => exact absurd hin ((notIn_iff hf.inv c).mp hn)
      refine ⟨y, L', ?_, hy, hr', by rw [waiting_snoc, registered_snoc]; exact hf', ?_, mode_step hn hm e1⟩
      · rw [runOn_append, e]
        simp [runOn, e2]
      · rw [registered_snoc]
        have hsub : ∀ d, c ∈ (if d ∈ registered ops then registered ops else d :: registered ops) := by
          intro d; split <;> first | exact hin | exact List.mem_cons_of_mem _ hin
        cases op with
        | recv d u => exact hsub d
        | accept d u => exact hsub d
        | send d u => exact hsub d
        | ready d m b => exact hin
        | close d => exact (List.mem_erase_of_ne (by rintro rfl; exact hc (by simp))).mpr hin
    · have : op = .send c t := by
        rcases List.mem_append.mp hs with e | e
        · exact absurd e hs'
        · exact (List.mem_singleton.mp e).symm
      subst this
      obtain ⟨x, L, e, hx, hr, hf⟩ := kqueue_run ops (OneEach.front h)
      obtain ⟨y, L', e1, e2, hy, hr', hf'⟩ := kqueue_step hx hr hf (op := .send c t) (fun c m t hw => h ops _ [] c m t rfl hw)
      refine ⟨y, L', ?_, hy, hr', by rw [waiting_snoc, registered_snoc]; exact hf', ?_, ?_⟩
      · rw [runOn_append, e]
        simp [runOn, e2]
      · rw [registered_snoc]
        show c ∈ if c ∈ registered ops then _ else _
        split
        · assumption
        · simp
      · cases e1; exact mode_new ..

/-- on BSD and macOS a connection on which a task ever waited to send is reported whenever it is ready for writing, also when nobody waits for that any
more, until it is closed: `net-poll` returns at once instead of waiting -/
theorem C98_kqueue_noisy_wrong (ops : List (LoopOp T)) (h : OneEach ops) (c : Nat) (t : T) (hs : LoopOp.send c t ∈ ops) (hc : LoopOp.close c ∉ ops) :
    ∃ x, runOn kqueueSys (.start kqueueSys) ops = some x ∧ kqueueReports x.k c .write = true := by
  obtain ⟨x, L, e, hx, hr, hf, hin, hm⟩ := kqueue_noise ops h hs hc
  refine ⟨x, e, ?_⟩
  have ho : L.closed c = false := by rw [hf.sim.closed]; exact closed_snoc hc
  obtain ⟨ms, hms⟩ := hf.inv.inPoll c hin ho
  have := relQ_reports hr c .write
  rw [hms, Option.getD_some, hf.exact.same c ms hms, decide_eq_true hm] at this
  exact this

/-! ### the hypotheses can be met -/

/-- a history with two connections, a reader that blocks again and a writer -/
def sample : List (LoopOp String) := [.recv 0 "a", .send 1 "b", .ready 0 .read true, .send 0 "d", .ready 1 .write false, .ready 0 .read false, .close 1, .recv 0 "c"]

theorem sample_one : OneEach sample := by
  intro a op b c m t e hw
  match a, e with
  | [], e => cases e; cases hw; rfl
  | [_], e => cases e; cases hw; rfl
  | [_, _], e => cases e; cases hw
  | [_, _, _], e => cases e; cases hw; rfl
  | [_, _, _, _], e => cases e; cases hw
  | [_, _, _, _, _], e => cases e; cases hw
  | [_, _, _, _, _, _], e => cases e; cases hw
  | [_, _, _, _, _, _, _], e => cases e; cases hw; rfl
  | _ :: _ :: _ :: _ :: _ :: _ :: _ :: _ :: a, e => simp [sample] at e

theorem sample_sends : FirstSends sample := by
  intro a c t b e
  match a, e with
  | [], e => cases e
  | [_], e => cases e; simp
  | [_, _], e => cases e
  | [_, _, _], e => cases e; simp
  | [_, _, _, _], e => cases e
  | [_, _, _, _, _], e => cases e
  | [_, _, _, _, _, _], e => cases e
  | [_, _, _, _, _, _, _], e => cases e
  | _ :: _ :: _ :: _ :: _ :: _ :: _ :: _ :: a, e => simp [sample] at e

example : OneEach sample ∧ FirstSends sample ∧ (waiting sample).woken = ["b", "a"] ∧ (waiting sample).tasks 0 .read = [(false, "c")] ∧
    (waiting sample).tasks 0 .write = [(false, "d")] ∧ (waiting sample).closed 0 = false :=
  ⟨sample_one, sample_sends, rfl, rfl, rfl, rfl⟩

/-- the table on Linux after it: connection 0 is watched for both, connection 1 not at all -/
example : ((runOn epollSys (.start epollSys) sample).map fun x => (x.loop.ready, x.k.entry 0, x.k.entry 1, [epollReports x.k 0 .read, epollReports x.k 0 .write])) =
    some (["b", "a"], some (5, 0), none, [true, true]) := by decide +kernel

/-- nobody waits, and the connection is reported -/
example : OneEach [LoopOp.send 0 "a", .ready 0 .write false] ∧ (waiting [LoopOp.send 0 "a", .ready 0 .write false]).tasks 0 .write = [] ∧
    (waiting [LoopOp.send 0 "a", .ready 0 .write false]).woken = ["a"] ∧
    ((runOn kqueueSys (.start kqueueSys) [LoopOp.send 0 "a", .ready 0 .write false]).map fun x => kqueueReports x.k 0 .write) = some true := by
  refine ⟨?_, rfl, rfl, by decide +kernel⟩
  intro a op b d m u e hw
  match a, e with
  | [], e => cases e; cases hw; rfl
  | [_], e => cases e; cases hw
  | _ :: _ :: a, e => simp at e

/-- `C98_kqueue_noisy_wrong` on a history in which the task was served -/
example : ∃ x, runOn kqueueSys (.start kqueueSys) sample = some x ∧ kqueueReports x.k 0 .write = true :=
  C98_kqueue_noisy_wrong sample sample_one 0 "d" (by simp [sample]) (by simp [sample])

end Cora.Async
