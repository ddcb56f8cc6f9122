import Verif.Lemmas.Async
/-
C63 and C64: the event loop wakes the tasks that wait and stops when nobody does.
-/
open Spec
namespace Cora.Async

variable {T : Type}

@[elab_as_elim]
theorem snocRec {α : Type} {motive : List α → Prop} (nil : motive [])
    (append_singleton : ∀ l a, motive l → motive (l ++ [a])) (l : List α) : motive l := by
  have : ∀ l : List α, motive l.reverse := by
    intro l
    induction l with
    | nil => exact nil
    | cons a l ih => rw [List.reverse_cons]; exact append_singleton _ a ih
  have h := this l.reverse
  rwa [List.reverse_reverse] at h

theorem run_append (L : Loop T) (a b : List (LoopOp T)) : run L (a ++ b) = (run L a).bind fun L' => run L' b := by
  induction a generalizing L with
  | nil => rfl
  | cons o a ih =>
    simp only [List.cons_append, run]
    cases step L o with
    | none => rfl
    | some L' => exact ih L'

theorem registered_snoc (ops : List (LoopOp T)) (op : LoopOp T) :
    registered (ops ++ [op]) = regStep (registered ops) op := by
  simp only [registered, List.foldl_append, List.foldl_cons, List.foldl_nil]
  cases op <;> rfl

theorem waiting_snoc (ops : List (LoopOp T)) (op : LoopOp T) : waiting (ops ++ [op]) = (waiting ops).step op := by
  simp only [waiting, List.foldl_append, List.foldl_cons, List.foldl_nil]

/-- the connections on which waiting sends were completed -/
def sents (ops : List (LoopOp T)) : List Nat := ops.foldl (fun d op => LoopOp.sent op ++ d) []

theorem sents_snoc (ops : List (LoopOp T)) (op : LoopOp T) : sents (ops ++ [op]) = LoopOp.sent op ++ sents ops := by
  simp only [sents, List.foldl_append, List.foldl_cons, List.foldl_nil]

theorem mem_sents {ops : List (LoopOp T)} {c : Nat} (h : c ∈ sents ops) : LoopOp.ready c .write false ∈ ops := by
  induction ops using snocRec with
  | nil => cases h
  | append_singleton ops op ih =>
    rw [sents_snoc] at h
    rcases List.mem_append.mp h with h | h
    · cases op with
      | ready d m b => cases m <;> cases b <;> simp_all [LoopOp.sent]
      | _ => cases h
    · exact List.mem_append_left _ (ih h)

/-- the callback of a waiting task -/
def cbOf (m : Mode) (x : Bool × T) : Cb T :=
  match m, x with
  | .read, (false, t) => .recv t
  | .read, (true, t) => .accept t
  | .write, (_, t) => .send t

/-- every history goes through, and keeps the invariant -/
theorem run_inv (ops : List (LoopOp T)) :
    ∃ L, run Loop.init ops = some L ∧ Inv L (registered ops) (sents ops) ∧ Kinds L := by
  induction ops using snocRec with
  | nil =>
    exact ⟨_, rfl, inv_init, (fun _ _ h => by cases h), (fun _ _ h => by cases h)⟩
  | append_singleton ops op ih =>
    obtain ⟨L, h1, h2, h3⟩ := ih
    obtain ⟨L', h4, h5, h6⟩ := inv_step h2 h3 op
    refine ⟨L', ?_, ?_, h6⟩
    · rw [run_append, h1]
      simp [run, h4]
    · rw [registered_snoc, sents_snoc]; exact h5

/-- the loop does what should happen -/
structure Sim (L : Loop T) (w : Waiting T) (dn : List Nat) : Prop where
  cbs : ∀ c m, L.cb c m = (w.tasks c m).head?.map (cbOf m)
  one : ∀ c m, (w.tasks c m).length ≤ 1
  closed : L.closed = w.closed
  ready : L.ready = w.woken
  sent : ∀ c ∈ dn, w.closed c = true ∨ w.tasks c .write = []
  plain : ∀ c x, x ∈ w.tasks c .write → x.1 = false

theorem cb_add (L : Loop T) (c : Nat) (m : Mode) (cb : Cb T) (d : Nat) (n : Mode) :
    (L.add c m cb).cb d n = if d = c ∧ n = m then some cb else L.cb d n := by
  obtain ⟨h1, h2, _⟩ := add_cb L c m cb
  cases n with
  | read => simp only [Loop.cb, h1]; by_cases h : d = c <;> cases m <;> simp [h]
  | write => simp only [Loop.cb, h2]; by_cases h : d = c <;> cases m <;> simp [h]

theorem add_closed (L : Loop T) (c : Nat) (m : Mode) (cb : Cb T) : (L.add c m cb).closed = L.closed := by
  cases hn : L.notIn c with
  | false => exact (add_in m cb hn).closed
  | true => exact (add_out m cb hn).closed

theorem sim_wait {L : Loop T} {w : Waiting T} {dn : List Nat} (h : Sim L w dn) {c : Nat} {m : Mode} {x : Bool × T}
    (h1 : w.tasks c m = []) (h2 : m = .write → c ∉ dn) (h3 : m = .write → x.1 = false) :
    Sim (L.add c m (cbOf m x)) (w.wait c m x) dn := by
  refine ⟨?_, ?_, ?_, ?_, ?_, ?_⟩
  · intro d n
    rw [cb_add]
    simp only [Waiting.wait]
    split
    · rename_i hh; obtain ⟨rfl, rfl⟩ := hh; rw [h1]; rfl
    · exact h.cbs d n
  · intro d n
    simp only [Waiting.wait]
    split
    · rename_i hh; obtain ⟨rfl, rfl⟩ := hh; rw [h1]; simp
    · exact h.one d n
  · rw [add_closed]; exact h.closed
  · rw [(add_cb L c m _).2.2]; exact h.ready
  · intro d hd
    simp only [Waiting.wait]
    split
    · rename_i hh; obtain ⟨rfl, rfl⟩ := hh; exact absurd hd (h2 rfl)
    · exact h.sent d hd
  · intro d y hy
    simp only [Waiting.wait] at hy
    split at hy
    · rename_i hh
      obtain ⟨rfl, rfl⟩ := hh
      rw [h1] at hy
      simp at hy
      rw [hy]
      exact h3 rfl
    · exact h.plain d y hy

/-- an open connection for which a task waits is watched -/
theorem watched {L : Loop T} {w : Waiting T} {l dn : List Nat} (hi : Inv L l dn) (h : Sim L w dn) {c : Nat} {m : Mode}
    (ho : w.closed c = false) (hw : w.tasks c m ≠ []) : m ∈ (L.poll c).getD [] := by
  have ho' : L.closed c = false := by rw [h.closed]; exact ho
  have hcb : L.cb c m ≠ none := by
    rw [h.cbs]
    cases ht : w.tasks c m with
    | nil => exact absurd ht hw
    | cons x r => simp
  cases m with
  | read =>
    obtain ⟨h1, h2⟩ := hi.readCb c ho' hcb
    obtain ⟨ms, hms⟩ := hi.inPoll c h1 ho'
    rw [hms]
    exact (hi.pollIn c ms hms).2.2.mpr h2
  | write =>
    obtain ⟨h1, h2⟩ := hi.writeCb c ho' hcb
    obtain ⟨ms, hms⟩ := hi.inPoll c h1 ho'
    rw [hms]
    refine hi.write c ms ?_ hms h2
    intro hd
    rcases h.sent c hd with e | e
    · rw [ho] at e; cases e
    · exact hw e

theorem cb_setCb (L : Loop T) (c : Nat) (m : Mode) (cb : Option (Cb T)) (d : Nat) (n : Mode) :
    (L.setCb c m cb).cb d n = if d = c ∧ n = m then cb else L.cb d n := by
  obtain ⟨h1, h2⟩ := setCb_cb L c m cb
  cases n with
  | read => simp only [Loop.cb, h1]; by_cases h : d = c <;> cases m <;> simp [h]
  | write => simp only [Loop.cb, h2]; by_cases h : d = c <;> cases m <;> simp [h]

theorem setCb_rest (L : Loop T) (c : Nat) (m : Mode) (cb : Option (Cb T)) :
    (L.setCb c m cb).closed = L.closed ∧ (L.setCb c m cb).ready = L.ready := by
  cases m <;> exact ⟨rfl, rfl⟩

theorem pollMod_closed (L : Loop T) (c : Nat) (ms : List Mode) : (L.pollMod c ms).closed = L.closed := by
  unfold Loop.pollMod; split <;> rfl

/-- a callback done: everything but the poll -/
theorem sim_done {L L' : Loop T} {w : Waiting T} {dn dn' : List Nat} (h : Sim L w dn) {c : Nat} {m : Mode} {x : Bool × T}
    (ht : w.tasks c m = [x]) (hcb : ∀ d n, L'.cb d n = (L.setCb c m none).cb d n) (hcl : L'.closed = L.closed)
    (hr : L'.ready = L.ready ++ [x.2]) (hd : ∀ d ∈ dn', d ∈ dn ∨ (d = c ∧ m = .write)) :
    Sim L' { w with tasks := fun d n => if d = c ∧ n = m then [] else w.tasks d n, woken := w.woken ++ [x.2] } dn' := by
  refine ⟨?_, ?_, ?_, ?_, ?_, ?_⟩
  · intro d n
    rw [hcb, cb_setCb]
    simp only
    split
    · rfl
    · exact h.cbs d n
  · intro d n
    simp only
    split
    · simp
    · exact h.one d n
  · rw [hcl]; exact h.closed
  · rw [hr, h.ready]
  · intro d hdd
    simp only
    rcases hd d hdd with e | ⟨rfl, rfl⟩
    · rcases h.sent d e with e | e
      · exact .inl e
      · refine .inr ?_
        split
        · rfl
        · exact e
    · simp
  · intro d y hy
    simp only at hy
    split at hy
    · cases hy
    · exact h.plain d y hy

theorem sim_ready {L : Loop T} {w : Waiting T} {l dn : List Nat} (hi : Inv L l dn) (h : Sim L w dn) (c : Nat) (m : Mode)
    (b : Bool) : Sim (L.event c m b) (w.ready c m b) (LoopOp.sent (.ready c m b : LoopOp T) ++ dn) := by
  have hsub : ∀ d ∈ LoopOp.sent (.ready c m b : LoopOp T) ++ dn, d ∈ dn ∨ (d = c ∧ m = .write ∧ b = false) := by
    intro d hd
    rcases List.mem_append.mp hd with hd | hd
    · cases m <;> cases b <;> simp_all [LoopOp.sent]
    · exact .inl hd
  rw [event_eq]
  unfold Waiting.ready
  cases ht : w.tasks c m with
  | nil =>
    have hcb : L.cb c m = none := by rw [h.cbs, ht]; rfl
    rw [hcb]
    simp only [ite_self]
    refine { h with sent := ?_ }
    intro d hd
    rcases hsub d hd with e | ⟨rfl, rfl, _⟩
    · exact h.sent d e
    · exact .inr ht
  | cons x r =>
    have hr : r = [] := by
      have := h.one c m
      rw [ht] at this
      cases r with
      | nil => rfl
      | cons _ _ => simp at this
    subst hr
    have hcb : L.cb c m = some (cbOf m x) := by rw [h.cbs, ht]; rfl
    rw [hcb]
    simp only
    cases hcl : w.closed c with
    | true =>
      have hp : L.poll c = none := by
        cases hp : L.poll c with
        | none => rfl
        | some ms =>
          have := (hi.pollIn c ms hp).2.1
          rw [h.closed, hcl] at this
          cases this
      rw [hp]
      simp only [Option.getD_none, List.not_mem_nil, if_false, true_or, if_true]
      refine { h with sent := ?_ }
      intro d hd
      rcases hsub d hd with e | ⟨rfl, rfl, _⟩
      · exact h.sent d e
      · exact .inl hcl
    | false =>
      rw [if_pos (watched hi h hcl (by rw [ht]; simp))]
      obtain ⟨acc, t⟩ := x
      cases m with
      | read =>
        have hsub' : LoopOp.sent (.ready c .read b : LoopOp T) ++ dn = dn := by cases b <;> rfl
        rw [hsub']
        cases acc with
        | true =>
          simp only [cbOf, Loop.call, Loop.acceptHandler]
          rw [if_neg (by simp)]
          refine sim_done h ht (fun _ _ => rfl) (setCb_rest L c .read none).1 ?_ (fun d hd => .inl hd)
          rfl
        | false =>
          simp only [cbOf, Loop.call, Loop.recvHandler]
          cases b with
          | true =>
            simp only [if_true, and_self, or_true]
            refine ⟨?_, h.one, ?_, ?_, h.sent, h.plain⟩
            · intro d n
              rw [cb_add]
              split
              · rename_i hh; obtain ⟨rfl, rfl⟩ := hh; rw [ht]; rfl
              · exact h.cbs d n
            · rw [add_closed]; exact h.closed
            · rw [(add_cb L c .read _).2.2]; exact h.ready
          | false =>
            simp only [Bool.false_eq_true, if_false, false_and, or_self]
            refine sim_done h ht (fun _ _ => rfl) (setCb_rest L c .read none).1 ?_ (fun d hd => .inl hd)
            rfl
      | write =>
        have hacc : acc = false := h.plain c (acc, t) (by rw [ht]; simp)
        subst hacc
        simp only [cbOf, Loop.call, Loop.sendHandler]
        cases b with
        | true =>
          simp only [if_true, and_self, or_true]
          refine ⟨?_, h.one, ?_, ?_, h.sent, h.plain⟩
          · intro d n
            rw [cb_add]
            split
            · rename_i hh; obtain ⟨rfl, rfl⟩ := hh; rw [ht]; rfl
            · exact h.cbs d n
          · rw [add_closed]; exact h.closed
          · rw [(add_cb L c .write _).2.2]; exact h.ready
        | false =>
          simp only [Bool.false_eq_true, if_false, false_and, or_self]
          refine sim_done h ht ?_ ?_ ?_ ?_
          · intro d n
            cases n <;> simp only [Loop.cb, Loop.spawn, pollMod_conn]
          · simp only [Loop.spawn, pollMod_closed]
            exact (setCb_rest L c .write none).1
          · simp only [Loop.spawn, pollMod_ready]
            rw [(setCb_rest L c .write none).2]
          · intro d hd
            rcases hsub d hd with e | e
            · exact .inl e
            · exact .inr ⟨e.1, e.2.1⟩

theorem close_closed {L L' : Loop T} {c : Nat} (h : L.close c = some L') :
    L'.closed = fun d => if d = c then true else L.closed d := by
  have hs : ∀ (M : Loop T) p n, (M.setNext p n).closed = M.closed := by intro M p n; cases p <;> rfl
  unfold Loop.close Loop.delConn at h
  split at h
  · cases h; rfl
  · split at h
    · cases h
    · simp only at h
      split at h
      · cases h
        show (Loop.setNext _ _ _).closed = _
        rw [hs, hs]; rfl
      · cases h
        show (Loop.setNext _ _ _).closed = _
        rw [hs]
        show (Loop.setNext _ _ _).closed = _
        rw [hs]; rfl

theorem OneEach.front {a b : List (LoopOp T)} (h : OneEach (a ++ b)) : OneEach a := by
  intro x op y c m t e
  exact h x op (y ++ b) c m t (by rw [e]; simp)

theorem FirstSends.front {a b : List (LoopOp T)} (h : FirstSends (a ++ b)) : FirstSends a := by
  intro x c t y e
  exact h x c t (y ++ b) (by rw [e]; simp)

/-- under the two conditions the loop does what should happen -/
theorem run_sim (ops : List (LoopOp T)) (h1 : OneEach ops) (h2 : FirstSends ops) :
    ∃ L, run Loop.init ops = some L ∧ Inv L (registered ops) (sents ops) ∧ Sim L (waiting ops) (sents ops) := by
  induction ops using snocRec with
  | nil =>
    refine ⟨_, rfl, inv_init, ?_, ?_, rfl, rfl, (fun _ h => by cases h), (fun _ _ h => by cases h)⟩
    · intro c m; cases m <;> rfl
    · intro c m; simp [waiting, Waiting.none]
  | append_singleton ops op ih =>
    obtain ⟨L, e1, hi, hs⟩ := ih (OneEach.front h1) (FirstSends.front h2)
    obtain ⟨L2, e2, hi2, hk2⟩ := run_inv (ops ++ [op])
    refine ⟨L2, e2, hi2, ?_⟩
    rw [run_append, e1] at e2
    simp only [Option.bind_some, run] at e2
    rw [waiting_snoc, sents_snoc]
    cases op with
    | recv c t =>
      cases e2
      exact sim_wait (x := (false, t)) hs (h1 ops _ [] c .read t rfl rfl) (fun e => by cases e) (fun e => by cases e)
    | accept c t =>
      cases e2
      exact sim_wait (x := (true, t)) hs (h1 ops _ [] c .read t rfl rfl) (fun e => by cases e) (fun e => by cases e)
    | send c t =>
      cases e2
      exact sim_wait (x := (false, t)) hs (h1 ops _ [] c .write t rfl rfl)
        (fun _ hd => h2 ops c t [] rfl (mem_sents hd)) (fun _ => rfl)
    | ready c m b =>
      cases e2
      exact sim_ready hi hs c m b
    | close c =>
      obtain ⟨L', g1, g2, g3, g4⟩ := inv_close hi c
      simp only [step] at e2
      rw [g1] at e2
      simp only [Option.bind_some, Option.some.injEq, bind, Option.bind] at e2
      subst e2
      refine ⟨?_, hs.one, ?_, ?_, ?_, hs.plain⟩
      · intro d m
        have : L'.cb d m = L.cb d m := by
          cases m
          · exact (g3 d).1
          · exact (g3 d).2
        rw [this]
        exact hs.cbs d m
      · rw [close_closed g1, hs.closed]
        rfl
      · rw [g4]; exact hs.ready
      · intro d hd
        simp only [Waiting.step]
        split
        · exact .inl rfl
        · exact hs.sent d hd

/-! ### C63 -/

/-- the event loop wakes the tasks that should be woken, in the order, and keeps the others: for every history of
receiving, accepting, sending, readiness reports and closing in which one task at a time waits for a connection and
a mode, and in which nobody waits to send on a connection that was ready for writing before -/
theorem C63_wakes_partial (ops : List (LoopOp T)) (h1 : OneEach ops) (h2 : FirstSends ops) :
    ∃ L, run Loop.init ops = some L ∧ L.ready = (waiting ops).woken ∧
      (∀ c, (L.conn c).rcb = ((waiting ops).tasks c .read).head?.map (cbOf .read)) ∧
      (∀ c, (L.conn c).wcb = ((waiting ops).tasks c .write).head?.map (cbOf .write)) ∧
      (∀ c m, (waiting ops).closed c = false → (waiting ops).tasks c m ≠ [] → m ∈ (L.poll c).getD []) := by
  obtain ⟨L, e, hi, hs⟩ := run_sim ops h1 h2
  exact ⟨L, e, hs.ready, fun c => hs.cbs c .read, fun c => hs.cbs c .write, fun c m ho hw => watched hi hs ho hw⟩

/-- a connection that was not closed is open -/
theorem run_open {ops : List (LoopOp T)} {L : Loop T} {c : Nat} (e : run Loop.init ops = some L)
    (hc : LoopOp.close c ∉ ops) : L.closed c = false := by
  induction ops using snocRec generalizing L with
  | nil => cases e; rfl
  | append_singleton ops op ih =>
    obtain ⟨L0, e0, _, _⟩ := run_inv ops
    have h0 := ih e0 (fun h => hc (List.mem_append_left _ h))
    rw [run_append, e0] at e
    simp only [Option.bind_some, run] at e
    cases op with
    | recv d t => cases e; rw [add_closed]; exact h0
    | accept d t => cases e; rw [add_closed]; exact h0
    | send d t => cases e; rw [add_closed]; exact h0
    | ready d m b =>
      cases e
      rw [event_eq]
      split
      · split
        · exact h0
        · rename_i cb _
          cases cb <;> simp only [Loop.call, Loop.recvHandler, Loop.acceptHandler, Loop.sendHandler]
          · split
            · rw [add_closed]; exact h0
            · simp only [Loop.spawn, (setCb_rest L0 d .read none).1]; exact h0
          · simp only [Loop.spawn, (setCb_rest L0 d .read none).1]; exact h0
          · split
            · rw [add_closed]; exact h0
            · simp only [Loop.spawn, pollMod_closed, (setCb_rest L0 d .write none).1]; exact h0
      · exact h0
    | close d =>
      have hdc : c ≠ d := fun h => hc (by simp [h])
      simp only [step] at e
      cases g1 : L0.close d with
      | none => rw [g1] at e; cases e
      | some L' =>
        rw [g1] at e
        cases e
        rw [close_closed g1]
        simp [hdc, h0]

/-- no history makes the loop trap, and in every history a connection that is open and has somebody who receives or
accepts is watched for reading -/
theorem C63_readers_watched (ops : List (LoopOp T)) :
    ∃ L, run Loop.init ops = some L ∧
      ∀ c, LoopOp.close c ∉ ops → (L.conn c).rcb ≠ none → ∃ ms, L.poll c = some ms ∧ Mode.read ∈ ms := by
  obtain ⟨L, e, hi, _⟩ := run_inv ops
  refine ⟨L, e, fun c hc hr => ?_⟩
  have ho := run_open e hc
  obtain ⟨h1, h2⟩ := hi.readCb c ho hr
  obtain ⟨ms, hms⟩ := hi.inPoll c h1 ho
  exact ⟨ms, hms, (hi.pollIn c ms hms).2.2.mpr h2⟩

/-- a task that waits to send on a connection on which a waiting send was completed before is never woken: the
connection is not watched for writing, and a report that it is ready changes nothing -/
theorem C63_second_send_wrong :
    OneEach [LoopOp.send 0 "first", .ready 0 .write false, .send 0 "second"] ∧
    ∃ L : Loop String, run Loop.init [.send 0 "first", .ready 0 .write false, .send 0 "second"] = some L ∧
      (L.conn 0).wcb = some (.send "second") ∧ L.poll 0 = some [] ∧ L.ready = ["first"] ∧
      (∀ b, L.event 0 .write b = L) ∧
      (waiting [.send 0 "first", .ready 0 .write false, .send 0 "second", .ready 0 .write false]).woken =
        ["first", "second"] := by
  refine ⟨?_, _, rfl, rfl, rfl, rfl, fun b => rfl, rfl⟩
  intro a op b c m t e hw
  match a, e with
  | [], e => cases e; cases hw; rfl
  | [_], e => cases e; cases hw
  | [_, _], e => cases e; cases hw; rfl
  | _ :: _ :: _ :: a, e => simp at e

/-- of two tasks that accept on one connection the first is forgotten -/
theorem C63_two_accepts_wrong :
    ∃ L : Loop String, run Loop.init [.accept 0 "first", .accept 0 "second", .ready 0 .read false, .ready 0 .read false] =
        some L ∧ L.ready = ["second"] ∧ (L.conn 0).rcb = none ∧
      (waiting [.accept 0 "first", .accept 0 "second", .ready 0 .read false, .ready 0 .read false]).woken =
        ["first", "second"] :=
  ⟨_, rfl, rfl, rfl, rfl⟩

/-- a history with two connections, a reader that blocks again and a writer, which meets the conditions -/
example :
    let ops := [LoopOp.recv 0 "a", .send 1 "b", .ready 0 .read true, .ready 1 .write false, .ready 0 .read false,
      .recv 0 "c"]
    OneEach ops ∧ FirstSends ops ∧ (waiting ops).woken = ["b", "a"] ∧
      ((waiting ops).tasks 0 .read) = [(false, "c")] := by
  refine ⟨?_, ?_, rfl, rfl⟩
  · intro a op b c m t e hw
    match a, e with
    | [], e => cases e; cases hw; rfl
    | [_], e => cases e; cases hw; rfl
    | [_, _], e => cases e; cases hw
    | [_, _, _], e => cases e; cases hw
    | [_, _, _, _], e => cases e; cases hw
    | [_, _, _, _, _], e => cases e; cases hw; rfl
    | _ :: _ :: _ :: _ :: _ :: _ :: a, e => simp at e
  · intro a c t b e
    match a, e with
    | [], e => cases e
    | [_], e => cases e; simp
    | [_, _], e => cases e
    | [_, _, _], e => cases e
    | [_, _, _, _], e => cases e
    | [_, _, _, _, _], e => cases e
    | _ :: _ :: _ :: _ :: _ :: _ :: a, e => simp at e

/-! ### C64 -/

theorem bqe_spec {L : Loop T} {p : Ref} {o : Option Nat} {l : List Nat} (hc : Chain L p o l) {n : Nat}
    (hn : l.length < n) :
    ∃ b, blockedQueueEmpty L n o = some b ∧ (b = true ↔ ∀ c ∈ l, (L.conn c).rcb = none ∧ (L.conn c).wcb = none) := by
  induction l generalizing p o n with
  | nil =>
    cases n with
    | zero => simp at hn
    | succ n => cases hc; exact ⟨true, rfl, by simp⟩
  | cons c l ih =>
    cases n with
    | zero => simp at hn
    | succ n =>
      obtain ⟨rfl, _, h3⟩ := hc
      obtain ⟨b, hb, hb'⟩ := ih h3 (n := n) (by simp at hn; omega)
      simp only [blockedQueueEmpty]
      cases hr : (L.conn c).rcb with
      | some x => exact ⟨false, by simp, by simp [hr]⟩
      | none =>
        cases hw : (L.conn c).wcb with
        | some x => exact ⟨false, by simp, by simp [hw]⟩
        | none => exact ⟨b, by simpa using hb, by simp [hb', hr, hw]⟩

/-- the walk that decides whether the scheduler stops ends for every history, and answers that nobody waits exactly
when no connection that was waited for and not closed has a callback -/
theorem C64_stops (ops : List (LoopOp T)) :
    ∃ L b, run Loop.init ops = some L ∧
      (∀ n, (registered ops).length < n → blockedQueueEmpty L n L.head = some b) ∧
      (b = true ↔ ∀ c ∈ registered ops, (L.conn c).rcb = none ∧ (L.conn c).wcb = none) := by
  obtain ⟨L, e, hi, _⟩ := run_inv ops
  obtain ⟨b, _, hb⟩ := bqe_spec hi.chain (Nat.lt_succ_self _)
  refine ⟨L, b, e, fun n hn => ?_, hb⟩
  obtain ⟨b', h1, h2⟩ := bqe_spec hi.chain hn
  have : b = b' := by rw [Bool.eq_iff_iff, hb, h2]
  rw [h1, this]

/-- in terms of who should be waiting: when the scheduler stops nobody waits on an open connection, and it stops when
nobody waits at all; for histories in which one task at a time waits for a connection and a mode and in which nobody
waits to send on a connection that was ready for writing before -/
theorem C64_nobody_waits_partial (ops : List (LoopOp T)) (h1 : OneEach ops) (h2 : FirstSends ops) :
    ∃ L b, run Loop.init ops = some L ∧
      (∀ n, (registered ops).length < n → blockedQueueEmpty L n L.head = some b) ∧
      (b = true → ∀ c m, (waiting ops).closed c = false → (waiting ops).tasks c m = []) ∧
      ((∀ c m, (waiting ops).tasks c m = []) → b = true) := by
  obtain ⟨L, b, e, hb1, hb2⟩ := C64_stops ops
  obtain ⟨L', e', hi, hs⟩ := run_sim ops h1 h2
  have hL : L' = L := by rw [e] at e'; cases e'; rfl
  rw [hL] at hi hs
  refine ⟨L, b, e, hb1, fun hb c m ho => ?_, fun hw => hb2.mpr fun c _ => ?_⟩
  · cases ht : (waiting ops).tasks c m with
    | nil => rfl
    | cons x r =>
      have hcb := hs.cbs c m
      rw [ht] at hcb
      have ho' : L.closed c = false := by rw [hs.closed]; exact ho
      cases m with
      | read =>
        have hc : (L.conn c).rcb = some (cbOf .read x) := hcb
        have hm := (hi.readCb c ho' (by rw [hc]; simp)).1
        rw [(hb2.mp hb c hm).1] at hc
        cases hc
      | write =>
        have hc : (L.conn c).wcb = some (cbOf .write x) := hcb
        have hm := (hi.writeCb c ho' (by rw [hc]; simp)).1
        rw [(hb2.mp hb c hm).2] at hc
        cases hc
  · have h3 := hs.cbs c .read
    have h4 := hs.cbs c .write
    rw [hw] at h3 h4
    exact ⟨h3, h4⟩

/-- two connections, the older one with a task: the walk passes the newer one and finds it -/
example : (run Loop.init [LoopOp.recv 0 "a", .recv 1 "b", .ready 1 .read false]).bind
    (fun L => blockedQueueEmpty L 3 L.head) = some false := rfl

/-- and when it is done as well the scheduler stops -/
example : (run Loop.init [LoopOp.recv 0 "a", .recv 1 "b", .ready 1 .read false, .ready 0 .read false]).bind
    (fun L => blockedQueueEmpty L 3 L.head) = some true := rfl

end Cora.Async
