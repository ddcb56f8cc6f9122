import Verif.Model.TraceThreads
import Verif.Props.Trace
/-
C81: tracing from several threads.
-/
open Spec.Trace
namespace Cora.Trace

theorem bytesAt_length (mem : Nat → Byte) (a n : Nat) : (bytesAt mem a n).length = n := by
  induction n generalizing a with
  | zero => rfl
  | succ n ih => simp [bytesAt, ih]

theorem bytesAt_add (mem : Nat → Byte) (a n m : Nat) : bytesAt mem a (n + m) = bytesAt mem a n ++ bytesAt mem (a + n) m := by
  induction n generalizing a with
  | zero => simp [bytesAt]
  | succ n ih => rw [show n + 1 + m = (n + m) + 1 by omega, bytesAt, bytesAt, ih]; simp; congr 1; omega

theorem store_other (mem : Nat → Byte) (a : Nat) (b : Bytes) (i : Nat) (h : i < a ∨ a + b.length ≤ i) : store mem a b i = mem i := by
  induction b generalizing mem a with
  | nil => rfl
  | cons c b ih =>
    rw [store, ih _ _ (by simp at h; omega), if_neg (by simp at h; omega)]

theorem bytesAt_congr (m m' : Nat → Byte) (a n : Nat) (h : ∀ i, a ≤ i → i < a + n → m i = m' i) : bytesAt m a n = bytesAt m' a n := by
  induction n generalizing a with
  | zero => rfl
  | succ n ih => rw [bytesAt, bytesAt, h a (by omega) (by omega), ih (a + 1) fun i h1 h2 => h i (by omega) (by omega)]

theorem bytesAt_store (mem : Nat → Byte) (a : Nat) (b : Bytes) : bytesAt (store mem a b) a b.length = b := by
  induction b generalizing mem a with
  | nil => rfl
  | cons c b ih =>
    rw [List.length_cons, bytesAt, store, store_other _ _ _ _ (by omega), if_pos rfl, ih]

theorem encode_length (e : Event) : (encode e).length = 16 + e.name.length := by
  have hl : ∀ n v, (le n v).length = n := by
    intro n
    induction n with
    | zero => intro v; rfl
    | succ n ih => intro v; simp [le, ih]
  simp [encode, hl]; omega

/-- a thread traces an event without another one between -/
def whole (t : Nat) (e : Event) : List Act := [.place t e, .write t, .bump t]

/-- the shared variables are those of the single-threaded tracer -/
structure Same (s : Shared) (u : St) : Prop where
  file : s.file = u.file
  buf : bytesAt s.mem 0 s.offset = u.buf
  disk : s.disk = u.disk
  outside : ∀ t, s.threads t = .outside

theorem Same.len {s : Shared} {u : St} (h : Same s u) : s.offset = u.buf.length := by rw [← h.buf, bytesAt_length]

theorem Same.flush {s : Shared} {u : St} (h : Same s u) : Same s.flush u.flush := by
  have hl := h.len
  unfold Shared.flush St.flush
  rw [h.file]
  cases hf : u.file with
  | none => exact h
  | some p =>
    dsimp only
    by_cases h0 : s.offset > 0
    · rw [if_pos h0, if_pos (by omega)]
      exact ⟨rfl, rfl, by simp only [h.buf, h.disk], h.outside⟩
    · rw [if_neg h0, if_neg (by omega)]
      exact h

theorem whole_same {s : Shared} {u u' : St} (h : Same s u) (t : Nat) (e : Event) (p : Path) (hf : u.file = some p)
    (hz : 0 ∉ e.name) (hu : u.emit e = some u') : ∃ s', s.run (whole t e) = some s' ∧ Same s' u' := by
  have hc : cName e.name = e.name := by
    unfold cName
    have : ∀ l : Bytes, 0 ∉ l → l.takeWhile (· != 0) = l := by
      intro l hl
      induction l with
      | nil => rfl
      | cons c l ih =>
        rw [List.takeWhile_cons_of_pos (by simp at hl ⊢; exact fun h => hl.1 h.symm), ih (by simp at hl; exact hl.2)]
    exact this _ hz
  simp only [St.emit, hf, hc] at hu
  let s1 := if s.offset + (16 + e.name.length) ≥ TRACE_BUFFER_SIZE then s.flush else s
  let u1 := if u.buf.length + (16 + e.name.length) ≥ TRACE_BUFFER_SIZE then u.flush else u
  have h1 : Same s1 u1 := by
    have hl := h.len
    show Same (if _ then _ else _) (if _ then _ else _)
    rw [hl]
    split
    · exact h.flush
    · exact h
  have hu1 : (if u1.buf.length + (16 + e.name.length) ≤ TRACE_BUFFER_SIZE then some { u1 with buf := u1.buf ++ encode e } else none) = some u' := hu
  have hl1 := h1.len
  by_cases hb : u1.buf.length + (16 + e.name.length) ≤ TRACE_BUFFER_SIZE
  · rw [if_pos hb] at hu1
    cases hu1
    refine ⟨{ s1 with offset := s1.offset + (16 + e.name.length), mem := store s1.mem s1.offset (encode e), threads := fun v => if v = t then .outside else if v = t then .written e else if v = t then .placed e s1.offset else s1.threads v }, ?_, ?_⟩
    · have e1 : s.act (.place t e) = some (s1.move t (.placed e s1.offset)) := by
        simp only [Shared.act, h.outside t]; rfl
      have e2 : (s1.move t (.placed e s1.offset)).act (.write t) =
          some ({ s1.move t (.placed e s1.offset) with mem := store s1.mem s1.offset (encode e) }.move t (.written e)) := by
        simp only [Shared.act, Shared.move, if_true]
        rw [if_pos (by rw [hl1]; exact hb)]
      simp only [whole, Shared.run, e1, e2, Option.bind_some]
      simp only [Shared.act, Shared.move, if_true, Option.bind_some]
    · refine ⟨h1.file, ?_, h1.disk, ?_⟩
      · dsimp only
        have hsz : 16 + e.name.length = (encode e).length := (encode_length e).symm
        rw [bytesAt_add, ← h1.buf, Nat.zero_add, hsz, bytesAt_store]
        congr 1
        exact bytesAt_congr _ _ _ _ fun i _ hi => store_other _ _ _ _ (by omega)
      · intro v
        dsimp only
        by_cases hv : v = t
        · rw [if_pos hv]
        · rw [if_neg hv, if_neg hv, if_neg hv]; exact h1.outside v
  · rw [if_neg hb] at hu1; cases hu1

theorem run_append (s : Shared) (a b : List Act) : s.run (a ++ b) = (s.run a).bind fun s => s.run b := by
  induction a generalizing s with
  | nil => rfl
  | cons x a ih =>
    simp only [List.cons_append, Shared.run]
    cases s.act x with
    | none => rfl
    | some s' => exact ih s'

theorem serial_same (p : Path) : ∀ (es : List (Nat × Event)) {s : Shared} {u u' : St}, Same s u → u.file = some p →
    (∀ x ∈ es, 0 ∉ x.2.name ∧ x.2.name.length < 255) → u.run (es.map fun x => .emit x.2) = some u' →
    ∃ s', s.run (es.flatMap fun x => whole x.1 x.2) = some s' ∧ Same s' u'
  | [], s, u, u', h, _, _, hr => by
    cases hr; exact ⟨s, rfl, h⟩
  | x :: es, s, u, u', h, hf, hz, hr => by
    have hx := hz x (by simp)
    simp only [List.map_cons, St.run] at hr
    have hop : u.op (.emit x.2) = u.emit x.2 := by
      simp only [St.op, symbolStr]
      rw [if_pos (by omega)]; rfl
    rw [hop] at hr
    cases he : u.emit x.2 with
    | none => rw [he] at hr; cases hr
    | some u1 =>
      rw [he] at hr
      obtain ⟨s1, hs1, h1⟩ := whole_same h x.1 x.2 p hf hx.1 he
      have hf1 : u1.file = some p := by
        simp only [St.emit, hf] at he
        have hfl : u.flush.file = some p := by unfold St.flush; rw [hf]; dsimp only; split <;> simp [hf]
        split at he <;> (split at he <;> first | (cases he; first | exact hfl | exact hf) | cases he)
      obtain ⟨s2, hs2, h2⟩ := serial_same p es h1 hf1 (fun y hy => hz y (List.mem_cons_of_mem _ hy)) hr
      refine ⟨s2, ?_, h2⟩
      rw [List.flatMap_cons, run_append, hs1]
      exact hs2

/-- **C81**, threads: when no two threads trace at the same moment, the tool reads the events of all threads, each once, in the order in
which they happened -/
theorem C81_threads_partial (p : Path) (disk : Path → Option Bytes) (es : List (Nat × Event))
    (hok : ∀ x ∈ es, (x.2.ph = 66 ∨ x.2.ph = 69) ∧ NameOk x.2) :
    ∃ s bytes, (Shared.opened p disk).run (es.flatMap fun x => whole x.1 x.2) = some s ∧ s.close.disk p = some bytes ∧
      decode bytes = some (es.map (·.2)) := by
  let ops : List Op := .enable p true :: es.map fun x => .emit x.2
  have hall : ∀ o ∈ ops ++ [Op.disable], OpOk o := by
    intro o ho
    simp only [ops, List.mem_append, List.mem_cons, List.mem_map, List.not_mem_nil, or_false] at ho
    rcases ho with (rfl | ⟨x, hx, rfl⟩) | rfl
    · trivial
    · exact hok x hx
    · trivial
  have hone : OneAtATime none (ops ++ [Op.disable]) := by
    refine ⟨rfl, ?_⟩
    have : ∀ (l : List (Nat × Event)) c, OneAtATime c ((l.map fun x => Op.emit x.2) ++ [Op.disable]) := by
      intro l
      induction l with
      | nil => intro c; exact trivial
      | cons x l ih => intro c; exact ih c
    exact this es _
  obtain ⟨u2, hu2, hlog⟩ := C81_trace_partial disk (ops ++ [Op.disable]) hall hone
  have hlogs : ∀ (l : List (Nat × Event)) (L : Log) (acc : List Event), L.cur = some p → L.events p = some acc →
      ((l.map fun x => Op.emit x.2).foldl Log.after L).events p = some (acc ++ l.map (·.2)) := by
    intro l
    induction l with
    | nil => intro L acc _ h; simpa using h
    | cons x l ih =>
      intro L acc hc h
      simp only [List.map_cons, List.foldl_cons]
      rw [ih (L.after (.emit x.2)) (acc ++ [x.2]) (by simp [Log.after, hc]) (by simp [Log.after, hc, h])]
      simp
  have hev : ((ops ++ [Op.disable]).foldl Log.after .empty).events p = some (es.map (·.2)) := by
    rw [List.foldl_append]
    have := hlogs es (Log.after .empty (.enable p true)) [] rfl (by simp [Log.after])
    simpa [ops, Log.after] using this
  have hcur : ((ops ++ [Op.disable]).foldl Log.after .empty).cur = none := by rw [List.foldl_append]; rfl
  have hfile := hlog hcur p
  rw [hev] at hfile
  obtain ⟨bytes, hb, hd⟩ := hfile
  have happ : ∀ (a : List Op) (u : St) (b : List Op), u.run (a ++ b) = (u.run a).bind fun u => u.run b := by
    intro a
    induction a with
    | nil => intro u b; rfl
    | cons o a ih =>
      intro u b
      simp only [List.cons_append, St.run]
      cases u.op o with
      | none => rfl
      | some u' => exact ih u' b
  rw [happ] at hu2
  cases hu : (St.start disk).run ops with
  | none => rw [hu] at hu2; cases hu2
  | some u' =>
    rw [hu] at hu2
    have hu' : ((St.start disk).init p true).run (es.map fun x => .emit x.2) = some u' := hu
    have h0 : Same (Shared.opened p disk) ((St.start disk).init p true) := ⟨rfl, rfl, rfl, fun _ => rfl⟩
    obtain ⟨s, hs, hsame⟩ := serial_same p es h0 rfl (fun x hx => ⟨(hok x hx).2.2, (hok x hx).2.1⟩) hu'
    refine ⟨s, bytes, hs, ?_, hd⟩
    have h2 : u2 = u'.close := by
      simp only [Option.bind_some, St.run, St.op, Option.some.injEq] at hu2
      exact hu2.symm
    have : s.close.disk = u'.close.disk := hsame.flush.disk
    rw [this, ← h2, hb]

/-- two threads at the same moment: both find the same place -/
def race (a b : Event) : List Act := [.place 1 a, .place 2 b, .write 1, .write 2, .bump 1, .bump 2]

/-- Two threads that trace at the same moment: one event is lost — what the buffer holds from there on are the bytes of the other and then
bytes nobody has written — and, when the buffer had not been used before, the tool cannot read the file. -/
theorem C81_threads_wrong (p : Path) (disk : Path → Option Bytes) (a b : Event) (ha : a.name.length ≤ b.name.length)
    (hb : NameOk b) (hp : b.ph = 66 ∨ b.ph = 69) :
    ∃ s bytes, (Shared.opened p disk).run (race a b) = some s ∧ s.close.disk p = some bytes ∧
      bytes = encode b ++ List.replicate (16 + a.name.length) 0 ∧ decode bytes = none := by
  have hbl := hb.1
  let m := store (store (fun _ => 0) 0 (encode a)) 0 (encode b)
  have hm : bytesAt m 0 (16 + a.name.length + (16 + b.name.length)) = encode b ++ List.replicate (16 + a.name.length) 0 := by
    rw [Nat.add_comm (16 + a.name.length), bytesAt_add]
    have e1 : bytesAt m 0 (16 + b.name.length) = encode b := by
      rw [← encode_length b]; exact bytesAt_store _ _ _
    rw [e1]
    congr 1
    have : ∀ i, 16 + b.name.length ≤ i → m i = 0 := by
      intro i hi
      show store _ _ _ i = 0
      rw [store_other _ _ _ _ (by right; rw [encode_length]; omega), store_other _ _ _ _ (by right; rw [encode_length]; omega)]
    have h2 : ∀ n k, 16 + b.name.length ≤ k → bytesAt m k n = List.replicate n 0 := by
      intro n
      induction n with
      | zero => intro k _; rfl
      | succ n ih => intro k hk; rw [bytesAt, this k hk, ih (k + 1) (by omega)]; rfl
    exact h2 _ _ (by omega)
  refine ⟨{ file := some p, offset := 16 + a.name.length + (16 + b.name.length), mem := m,
            disk := fun q => if q = p then some [] else disk q, threads := fun _ => .outside }, _, ?_, ?_, rfl, ?_⟩
  · have c1 : ¬ (16 + a.name.length ≥ TRACE_BUFFER_SIZE) := by simp [TRACE_BUFFER_SIZE]; omega
    have c2 : ¬ (16 + b.name.length ≥ TRACE_BUFFER_SIZE) := by simp [TRACE_BUFFER_SIZE]; omega
    have c3 : 16 + a.name.length ≤ TRACE_BUFFER_SIZE := by omega
    have c4 : 16 + b.name.length ≤ TRACE_BUFFER_SIZE := by omega
    simp only [race, Shared.run, Shared.opened, Shared.act, Shared.move, if_neg c1, if_neg c2, if_pos c3, if_pos c4, Option.bind_some,
      if_true, if_neg (by decide : ¬ (2 : Nat) = 1), if_neg (by decide : ¬ (1 : Nat) = 2), Nat.zero_add]
    congr 2
    funext u
    by_cases h1 : u = 1
    · subst h1; simp
    · by_cases h2 : u = 2
      · subst h2; simp
      · simp [h1, h2]
  · simp only [Shared.close, Shared.flush]
    rw [if_pos (by omega)]
    simp [hm]
  · rw [decode_encode b (by rcases hp with h | h <;> simp [KnownPh, h]) (by omega), show 16 + a.name.length = (15 + a.name.length) + 1 by omega,
      List.replicate_succ, decode, if_neg (by simp), if_neg (by decide)]
    rfl

/-- threads whose handles differ by a multiple of 65536 — threads made by the system with stacks of equal size do — are one thread in the
trace -/
theorem C81_tid_wrong (h h' : BitVec 64) (e : h.toNat % 65536 = h'.toNat % 65536) : traceTID h = traceTID h' := by
  unfold traceTID
  congr 1
  omega

/-- three events of two threads -/
example : ∃ s bytes, (Shared.opened [97] fun _ => none).run ([(1, beginF), (2, beginF), (1, endF)].flatMap fun x => whole x.1 x.2) = some s ∧
    s.close.disk [97] = some bytes ∧ decode bytes = some [beginF, beginF, endF] :=
  C81_threads_partial [97] _ [(1, beginF), (2, beginF), (1, endF)] (by
    intro x hx
    simp only [List.mem_cons, List.not_mem_nil, or_false] at hx
    rcases hx with rfl | rfl | rfl <;> exact ⟨by decide, by decide, by decide⟩)

/-- the race of two threads that call `f` -/
example : beginF.name.length ≤ beginF.name.length ∧ NameOk beginF ∧ (beginF.ph = 66 ∨ beginF.ph = 69) := by
  exact ⟨by decide, ⟨by decide, by decide⟩, by decide⟩

end Cora.Trace
