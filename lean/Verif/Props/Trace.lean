import Verif.Spec.Trace
/-
C81: trace files list every traced event once, in order.
-/
namespace Cora.Trace
open Spec.Trace

theorem length_le (n v : Nat) : (le n v).length = n := by
  induction n generalizing v with
  | zero => rfl
  | succ n ih => simp [le, ih]

theorem unle_le (n v : Nat) (h : v < 256 ^ n) : unle (le n v) = v := by
  induction n generalizing v with
  | zero => simp at h; simp [le, unle, h]
  | succ n ih =>
    simp only [le, unle]
    rw [ih (v / 256) (by rw [Nat.div_lt_iff_lt_mul (by omega)]; rw [Nat.pow_succ] at h; exact h)]
    have : (UInt8.ofNat (v % 256)).toNat = v % 256 := by simp
    rw [this]
    omega

/-- the six kinds of events that the tool knows -/
def KnownPh (ph : Byte) : Prop := ph = 66 ∨ ph = 69 ∨ ph = 98 ∨ ph = 101 ∨ ph = 115 ∨ ph = 102

/-- the tool reads an event back, whatever follows -/
theorem decode_encode (e : Event) (hp : KnownPh e.ph) (hn : e.name.length < 256) (rest : Bytes) :
    decode (encode e ++ rest) = (decode rest).map (e :: ·) := by
  have l2 := length_le 2 e.tid.toNat
  have l4 := length_le 4 e.id.toNat
  have l8 := length_le 8 e.ts.toNat
  have u2 := unle_le 2 e.tid.toNat (by have := e.tid.toNat_lt; omega)
  have u4 := unle_le 4 e.id.toNat (by have := e.id.toNat_lt; omega)
  have u8 := unle_le 8 e.ts.toNat (by have := e.ts.toNat_lt; omega)
  generalize ha : le 2 e.tid.toNat = a at *
  generalize hb : le 4 e.id.toNat = b at *
  generalize hc : le 8 e.ts.toNat = c at *
  have hlen : (UInt8.ofNat (e.name.length % 256)).toNat = e.name.length := by simp; omega
  match a, l2, b, l4, c, l8 with
  | [a0, a1], _, [b0, b1, b2, b3], _, [c0, c1, c2, c3, c4, c5, c6, c7], _ =>
    have hshape : encode e ++ rest = e.ph :: (UInt8.ofNat (e.name.length % 256) :: a0 :: a1 :: b0 :: b1 :: b2 :: b3 ::
        c0 :: c1 :: c2 :: c3 :: c4 :: c5 :: c6 :: c7 :: (e.name ++ rest)) := by
      simp [encode, ha, hb, hc]
    rw [hshape, decode, if_neg (by simp), if_pos (show _ ∨ _ from hp)]
    simp only [List.headD_cons, hlen, List.drop_succ_cons, List.drop_zero, List.take_succ_cons, List.take_zero, u2, u4, u8]
    rw [if_neg (by simp), List.drop_left, List.take_left]
    simp

/-- the tool reads a list of events back -/
theorem decode_events (es : List Event) (h : ∀ e ∈ es, KnownPh e.ph ∧ e.name.length < 256) : decode (es.flatMap encode) = some es := by
  induction es with
  | nil => simp [decode]
  | cons e es ih =>
    rw [List.flatMap_cons, decode_encode e (h e (by simp)).1 (h e (by simp)).2, ih fun x hx => h x (by simp [hx])]
    rfl

theorem cName_of {name : Bytes} (h : 0 ∉ name) : cName name = name := by
  unfold cName
  induction name with
  | nil => rfl
  | cons b r ih =>
    simp only [List.mem_cons, not_or] at h
    rw [List.takeWhile_cons, if_pos (by simpa using Ne.symm h.1), ih h.2]

/-- what is on disk and in the buffer is what was traced -/
structure Good (disk0 : Path → Option Bytes) (s : St) (l : Log) : Prop where
  file : s.file = l.cur
  opened : ∀ p, l.cur = some p → ∃ es, l.events p = some es
  names : ∀ p es, l.events p = some es → ∀ e ∈ es, KnownPh e.ph ∧ e.name.length < 256
  disk : ∀ p, l.cur ≠ some p → s.disk p = match l.events p with | some es => some (es.flatMap encode) | none => disk0 p
  now : ∀ p es, l.cur = some p → l.events p = some es → ∃ d, s.disk p = some d ∧ d ++ s.buf = es.flatMap encode
  small : s.buf.length ≤ TRACE_BUFFER_SIZE

theorem flush_good {disk0 : Path → Option Bytes} {s : St} {l : Log} (h : Good disk0 s l) : Good disk0 s.flush l ∧ (l.cur ≠ none → s.flush.buf = []) := by
  unfold St.flush
  cases hf : s.file with
  | none =>
    refine ⟨h, fun hc => ?_⟩
    rw [h.file] at hf
    exact absurd hf hc
  | some p =>
    have hc : l.cur = some p := by rw [← h.file, hf]
    dsimp only
    split
    · refine ⟨⟨?_, h.opened, h.names, ?_, ?_, by simp [TRACE_BUFFER_SIZE]⟩, fun _ => rfl⟩
      · exact hc.symm
      · intro q hq
        have hqp : q ≠ p := by rintro rfl; exact hq hc
        simp only [if_neg hqp]
        exact h.disk q hq
      · intro q es hq hes
        have hqp : q = p := by rw [hc] at hq; exact (Option.some.inj hq).symm
        subst hqp
        obtain ⟨d, h1, h2⟩ := h.now q es hq hes
        exact ⟨d ++ s.buf, by simp [h1], by simpa using h2⟩
    · rename_i hz
      exact ⟨h, fun _ => List.eq_nil_of_length_eq_zero (by omega)⟩

theorem close_good {disk0 : Path → Option Bytes} {s : St} {l : Log} (h : Good disk0 s l) : Good disk0 s.close { l with cur := none } := by
  obtain ⟨hg, hb⟩ := flush_good h
  refine ⟨rfl, by simp, hg.names, ?_, by simp, hg.small⟩
  intro p _
  show s.flush.disk p = _
  by_cases hp : l.cur = some p
  · obtain ⟨es, hes⟩ := hg.opened p hp
    obtain ⟨d, h1, h2⟩ := hg.now p es hp hes
    rw [hb (by rw [hp]; simp)] at h2
    simp only [List.append_nil] at h2
    simp [hes, h1, h2]
  · exact hg.disk p hp

theorem op_good {disk0 : Path → Option Bytes} {s : St} {l : Log} (h : Good disk0 s l) {o : Op} (ho : OpOk o)
    (hone : ∀ p ok, o = .enable p ok → l.cur = none) : ∃ s', s.op o = some s' ∧ Good disk0 s' (l.after o) := by
  cases o with
  | enable p ok =>
    refine ⟨_, rfl, ?_⟩
    have hn := hone p ok rfl
    cases ok with
    | true =>
      refine ⟨rfl, ?_, ?_, ?_, ?_, by simp [St.init, TRACE_BUFFER_SIZE]⟩
      · intro q hq; cases hq; exact ⟨[], by simp [Log.after]⟩
      · intro q es hes
        simp only [Log.after] at hes
        split at hes
        · cases hes; simp
        · exact h.names q es hes
      · intro q hq
        have hqp : q ≠ p := by rintro rfl; exact hq rfl
        simp only [St.init, Log.after, if_true, if_neg hqp]
        exact h.disk q (by rw [hn]; simp)
      · intro q es hq hes
        cases hq
        simp only [Log.after, if_true] at hes
        cases hes
        exact ⟨[], by simp [St.init], rfl⟩
    | false =>
      refine ⟨rfl, by simp [Log.after], h.names, ?_, by simp [Log.after], by simp [St.init, TRACE_BUFFER_SIZE]⟩
      intro q _
      exact h.disk q (by rw [hn]; simp)
  | disable => exact ⟨_, rfl, close_good h⟩
  | exit => exact ⟨_, rfl, close_good h⟩
  | emit e =>
    obtain ⟨hph, hlen, hz⟩ := ho
    have hk : KnownPh e.ph := by rcases hph with h | h <;> simp [KnownPh, h]
    simp only [St.op, symbolStr, if_pos (show e.name.length + 1 < 256 by omega), Option.bind_eq_bind, Option.bind_some, St.emit]
    cases hf : s.file with
    | none =>
      refine ⟨s, rfl, ?_⟩
      have hc : l.cur = none := by rw [← h.file, hf]
      simp only [Log.after, hc]
      exact h
    | some p =>
      have hc : l.cur = some p := by rw [← h.file, hf]
      simp only [cName_of hz]
      have key : ∀ t : St, Good disk0 t l → t.buf.length + (16 + e.name.length) ≤ TRACE_BUFFER_SIZE →
          Good disk0 { t with buf := t.buf ++ encode e } (l.after (.emit e)) := by
        intro t ht hsz
        obtain ⟨es, hes⟩ := ht.opened p hc
        simp only [Log.after, hc]
        refine ⟨by rw [← hc]; exact ht.file, ?_, ?_, ?_, ?_, ?_⟩
        · intro q hq; cases hq; exact ⟨es ++ [e], by simp [hes]⟩
        · intro q es' hes'
          simp only at hes'
          split at hes'
          · rename_i hqp
            subst hqp
            rw [hes] at hes'
            cases hes'
            intro x hx
            rcases List.mem_append.mp hx with hx | hx
            · exact ht.names q es hes x hx
            · rw [List.mem_singleton] at hx
              subst hx
              exact ⟨hk, by omega⟩
          · exact ht.names q es' hes'
        · intro q hq
          have hqp : q ≠ p := by rintro rfl; exact hq rfl
          simp only [if_neg hqp]
          exact ht.disk q (by rw [hc]; exact hq)
        · intro q es' hq hes'
          cases hq
          simp only [if_true, hes, Option.map_some] at hes'
          cases hes'
          obtain ⟨d, h1, h2⟩ := ht.now p es hc hes
          exact ⟨d, h1, by simp [← h2]⟩
        · simp only [List.length_append, encode, length_le, List.length_cons, List.length_nil]
          omega
      by_cases hfull : s.buf.length + (16 + e.name.length) ≥ TRACE_BUFFER_SIZE
      · obtain ⟨hg, hb⟩ := flush_good h
        have hb := hb (by rw [hc]; simp)
        have hsz : s.flush.buf.length + (16 + e.name.length) ≤ TRACE_BUFFER_SIZE := by
          rw [hb]; simp only [TRACE_BUFFER_SIZE, List.length_nil]; omega
        rw [if_pos hfull, if_pos hsz]
        exact ⟨_, rfl, key _ hg hsz⟩
      · have hsz : s.buf.length + (16 + e.name.length) ≤ TRACE_BUFFER_SIZE := by omega
        rw [if_neg hfull, if_pos hsz]
        exact ⟨_, rfl, key _ h hsz⟩

theorem run_good {disk0 : Path → Option Bytes} : ∀ (ops : List Op) {s : St} {l : Log}, Good disk0 s l → (∀ o ∈ ops, OpOk o) →
    OneAtATime l.cur ops → ∃ s', s.run ops = some s' ∧ Good disk0 s' (ops.foldl Log.after l)
  | [], s, l, h, _, _ => ⟨s, rfl, h⟩
  | o :: r, s, l, h, hok, hone => by
    have h1 : (∀ p ok, o = .enable p ok → l.cur = none) ∧ OneAtATime (l.after o).cur r := by
      cases o with
      | enable p ok => exact ⟨fun _ _ _ => hone.1, by cases ok <;> exact hone.2⟩
      | disable => exact ⟨by simp, hone⟩
      | exit => exact ⟨by simp, hone⟩
      | emit e =>
        refine ⟨by simp, ?_⟩
        simp only [Log.after]
        split
        · exact hone
        · exact hone
    obtain ⟨s', hs, hg⟩ := op_good h (hok o (by simp)) h1.1
    obtain ⟨s'', hr, hg'⟩ := run_good r hg (fun x hx => hok x (by simp [hx])) h1.2
    exact ⟨s'', by simp [St.run, hs, hr], hg'⟩

/-- **C81**. Whatever is traced, to whichever files, one at a time: nothing is written outside of the buffer, and when tracing is off, the
tool reads from every trace file the events that happened while the file was open, each once and in order. Other files are as they
were. -/
theorem C81_trace_partial (disk : Path → Option Bytes) (ops : List Op) (hok : ∀ o ∈ ops, OpOk o) (hone : OneAtATime none ops) :
    ∃ s, (St.start disk).run ops = some s ∧ ((ops.foldl Log.after .empty).cur = none →
      ∀ p, match (ops.foldl Log.after .empty).events p with
        | some es => ∃ bytes, s.disk p = some bytes ∧ decode bytes = some es
        | none => s.disk p = disk p) := by
  have h0 : Good disk (St.start disk) .empty :=
    ⟨rfl, by simp [Log.empty], by simp [Log.empty], fun _ _ => rfl, by simp [Log.empty], by simp [St.start, TRACE_BUFFER_SIZE]⟩
  obtain ⟨s, hs, hg⟩ := run_good ops h0 hok hone
  refine ⟨s, hs, fun hc p => ?_⟩
  have := hg.disk p (by rw [hc]; simp)
  cases he : (ops.foldl Log.after .empty).events p with
  | none => rw [he] at this; exact this
  | some es =>
    rw [he] at this
    exact ⟨_, this, decode_events es (hg.names p es he)⟩

/-- **C81**, while tracing is on: the file is behind by what is in the buffer, which is less than a megabyte. -/
theorem C81_buffered (disk : Path → Option Bytes) (ops : List Op) (hok : ∀ o ∈ ops, OpOk o) (hone : OneAtATime none ops) (p : Path)
    (hp : (ops.foldl Log.after .empty).cur = some p) : ∃ s es bytes, (St.start disk).run ops = some s ∧
      (ops.foldl Log.after .empty).events p = some es ∧ s.disk p = some bytes ∧ decode (bytes ++ s.buf) = some es ∧
      s.buf.length ≤ 1048576 := by
  have h0 : Good disk (St.start disk) .empty :=
    ⟨rfl, by simp [Log.empty], by simp [Log.empty], fun _ _ => rfl, by simp [Log.empty], by simp [St.start, TRACE_BUFFER_SIZE]⟩
  obtain ⟨s, hs, hg⟩ := run_good ops h0 hok hone
  obtain ⟨es, hes⟩ := hg.opened p hp
  obtain ⟨d, h1, h2⟩ := hg.now p es hp hes
  exact ⟨s, es, d, hs, hes, h1, by rw [h2]; exact decode_events es (hg.names p es hes), hg.small⟩

/-! ### where events are lost -/

/-- a call of `f` begins -/
def beginF : Event := ⟨66, [102], 1, 0, 5⟩
/-- and ends -/
def endF : Event := ⟨69, [102], 1, 0, 7⟩

/-- Turning tracing on once more, to another file, loses what is in the buffer: two events were traced to the first file, which stays
empty. -/
theorem C81_enable_twice_wrong : ∃ s, (St.start fun _ => none).run [.enable [97] true, .emit beginF, .emit endF, .enable [98] true, .exit] = some s ∧
    ([.enable [97] true, .emit beginF, .emit endF, .enable [98] true, .exit].foldl Log.after .empty).events [97] = some [beginF, endF] ∧
    s.disk [97] = some [] := ⟨_, rfl, rfl, rfl⟩

/-- Calling a traced function whose name has 255 bytes or more fails an assertion, also when tracing is off. -/
theorem C81_long_name_wrong (s : St) (e : Event) (h : 255 ≤ e.name.length) : s.op (.emit e) = none := by
  simp only [St.op, symbolStr]
  rw [if_neg (by omega)]
  rfl

/-- The hypotheses hold of a history with two files, one of them opened twice. -/
example : (∀ o ∈ [Op.enable [97] true, .emit beginF, .emit endF, .disable, .emit beginF, .enable [98] true, .emit endF, .disable, .enable [97] true,
    .emit endF, .exit], OpOk o) ∧ OneAtATime none [Op.enable [97] true, .emit beginF, .emit endF, .disable, .emit beginF, .enable [98] true, .emit endF,
    .disable, .enable [97] true, .emit endF, .exit] ∧
    ([Op.enable [97] true, .emit beginF, .emit endF, .disable, .emit beginF, .enable [98] true, .emit endF, .disable, .enable [97] true,
    .emit endF, .exit].foldl Log.after .empty).events [97] = some [endF] := by
  refine ⟨?_, by simp [OneAtATime], rfl⟩
  intro o ho
  simp only [List.mem_cons, List.not_mem_nil, or_false] at ho
  rcases ho with rfl | rfl | rfl | rfl | rfl | rfl | rfl | rfl | rfl | rfl | rfl <;> first | trivial | exact ⟨by decide, by decide, by decide⟩

end Cora.Trace
