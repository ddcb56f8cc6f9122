import Verif.Model.Net
/-
C62: sending and receiving over connections.
-/
namespace Cora.Net

/-- no call failed (being asked to try again is no failure) -/
def NoError (as : List Ans) : Prop := ∀ e, Ans.err e ∉ as

theorem take_step (buf : List UInt8) (pos n : Nat) : buf.take pos ++ (buf.drop pos).take n = buf.take (pos + n) := by
  rw [List.take_add]

theorem netSend_spec {buf : List UInt8} {pos : Nat} {as : List Ans} {r : NetRes} {bs : List UInt8} {as' : List Ans}
    (hp : pos ≤ buf.length) (ha : NoError as) (h : netSend buf pos as = some (r, bs, as')) :
    NoError as' ∧ ((r = .ok ∧ buf.take pos ++ bs = buf) ∨
      ∃ p, r = .block p ∧ p ≤ buf.length ∧ buf.take pos ++ bs = buf.take p) := by
  induction as generalizing pos r bs with
  | nil =>
    simp only [netSend] at h
    split at h
    · cases h
    · cases h
      exact ⟨ha, .inl ⟨rfl, by rw [List.take_of_length_le (by omega)]; simp⟩⟩
  | cons a as ih =>
    simp only [netSend] at h
    have ha' : NoError as := fun e he => ha e (List.mem_cons_of_mem _ he)
    split at h
    · cases a with
      | again => cases h; exact ⟨ha', .inr ⟨pos, rfl, hp, by simp⟩⟩
      | err e => exact absurd List.mem_cons_self (ha e)
      | moved n =>
        simp only at h
        cases hs : netSend buf (pos + min n (buf.length - pos)) as with
        | none => rw [hs] at h; cases h
        | some t =>
          obtain ⟨r', bs', as''⟩ := t
          rw [hs] at h
          cases h
          have := ih (by omega) ha' hs
          rw [← List.append_assoc, take_step]
          exact this
    · cases h
      exact ⟨ha, .inl ⟨rfl, by rw [List.take_of_length_le (by omega)]; simp⟩⟩

theorem send_spec {buf : List UInt8} {fuel pos : Nat} {sent : List UInt8} {as : List Ans} (hp : pos ≤ buf.length)
    (ha : NoError as) (hs : sent = buf.take pos) (r : NetRes) (out : List UInt8)
    (h : send buf fuel pos sent as = .done r out) : r = .ok ∧ out = buf := by
  induction fuel generalizing pos sent as with
  | zero => simp only [send] at h; cases h
  | succ fuel ih =>
    simp only [send] at h
    cases hn : netSend buf pos as with
    | none => rw [hn] at h; cases h
    | some t =>
      obtain ⟨r', bs, as'⟩ := t
      rw [hn] at h
      obtain ⟨ha', ⟨rfl, hb⟩ | ⟨p, rfl, hpb, hb⟩⟩ := netSend_spec hp ha hn
      · simp only [NetRes.two] at h
        cases h
        exact ⟨rfl, by rw [hs, hb]⟩
      · simp only [NetRes.two] at h
        exact ih hpb ha' (by rw [hs, hb]) h

/-- C62, partial (calls of `send` do not fail): when a send is done, the system was given exactly the bytes of the
buffer, each once and in order, in whatever pieces it took them and however often the task had to wait -/
theorem C62_send_partial (buf : List UInt8) (as : List Ans) (ha : NoError as) (fuel : Nat) (r : NetRes)
    (sent : List UInt8) (h : send buf fuel 0 [] as = .done r sent) : r = .ok ∧ sent = buf :=
  send_spec (Nat.zero_le _) ha (by simp) r sent h

theorem send_waits {buf : List UInt8} {fuel pos : Nat} {sent : List UInt8} {as : List Ans} (hp : pos ≤ buf.length)
    (ha : NoError as) (hf : as.length < fuel) (hm : ∀ n, Ans.moved n ∈ as → 0 < n)
    (hg : buf.length - pos ≤ (as.filter (fun a => a matches .moved _)).length) :
    ∃ out, send buf fuel pos sent as = .done .ok out := by
  induction as generalizing fuel pos sent with
  | nil =>
    obtain ⟨fuel, rfl⟩ : ∃ f, fuel = f + 1 := ⟨fuel - 1, by simp at hf; omega⟩
    simp at hg
    exact ⟨_, by simp only [send, netSend]; rw [if_neg (by omega)]; rfl⟩
  | cons a as ih =>
    obtain ⟨fuel, rfl⟩ : ∃ f, fuel = f + 1 := ⟨fuel - 1, by simp at hf; omega⟩
    have ha' : NoError as := fun e he => ha e (List.mem_cons_of_mem _ he)
    have hm' : ∀ n, Ans.moved n ∈ as → 0 < n := fun n hn => hm n (List.mem_cons_of_mem _ hn)
    by_cases hlt : pos < buf.length
    · cases a with
      | err e => exact absurd List.mem_cons_self (ha e)
      | again =>
        have := @ih fuel pos (sent ++ []) hp ha' (by simp at hf; omega) hm' (by simpa using hg)
        obtain ⟨out, ho⟩ := this
        refine ⟨out, ?_⟩
        simp only [send, netSend]
        rw [if_pos hlt]
        simpa only [NetRes.two] using ho
      | moved n =>
        have hn := hm n List.mem_cons_self
        have := @ih (fuel + 1) (pos + min n (buf.length - pos)) (sent ++ (buf.drop pos).take (min n (buf.length - pos)))
          (by omega) ha' (by simp at hf; omega) hm' (by simp at hg; omega)
        obtain ⟨out, ho⟩ := this
        refine ⟨out, ?_⟩
        simp only [send, netSend] at ho ⊢
        rw [if_pos hlt]
        cases hs : netSend buf (pos + min n (buf.length - pos)) as with
        | none => rw [hs] at ho; cases ho
        | some t =>
          obtain ⟨r', bs, as'⟩ := t
          rw [hs] at ho
          simp only at ho ⊢
          cases hr : r'.two with
          | none => rw [hr] at ho; simp only [List.append_assoc] at ho ⊢; exact ho
          | some p => rw [hr] at ho; simp only [List.append_assoc] at ho ⊢; exact ho
    · exact ⟨_, by simp only [send, netSend]; rw [if_neg hlt]; rfl⟩

/-- C62: a send is done once the system has taken bytes as often as the buffer is long -/
theorem C62_send_ends (buf : List UInt8) (as : List Ans) (ha : NoError as) (hm : ∀ n, Ans.moved n ∈ as → 0 < n)
    (hg : buf.length ≤ (as.filter (fun a => a matches .moved _)).length) :
    ∃ fuel, send buf fuel 0 [] as = .done .ok buf := by
  obtain ⟨out, ho⟩ := send_waits (sent := []) (Nat.zero_le _) ha (Nat.lt_succ_self _) hm (by simpa using hg)
  obtain ⟨_, rfl⟩ := C62_send_partial buf as ha _ _ _ ho
  exact ⟨_, ho⟩

/-- C62 is false of the code: an error is taken for a wait, so a send whose first call fails with an error number
not below the length of the buffer is reported as done although nothing was sent -/
theorem C62_send_error_wrong (buf : List UInt8) (e : Nat) (hb : buf ≠ []) (he : buf.length ≤ e) (as : List Ans) :
    send buf 2 0 [] (.err e :: as) = .done .ok [] := by
  have h0 : 0 < buf.length := List.length_pos_iff.mpr hb
  have h1 : ¬ e < buf.length := by omega
  cases as <;> simp [send, netSend, NetRes.two, h0, h1]

/-- C62 is false of the code: after an error the send goes on at the byte whose position is the error number
(4 is EINTR) -/
theorem C62_send_skips_wrong : send [1, 2, 3, 4, 5, 6] 2 0 [] [.err 4, .moved 6] = .done .ok [5, 6] := rfl

/-! ### receiving -/

/-- the buffer holds what came first, then what was there before -/
structure Filled (s0 s : Inp) (pos : Nat) : Prop where
  len : s.buf.length = s0.buf.length
  room : pos ≤ s0.buf.length
  avail : pos ≤ s0.inp.length
  inp : s.inp = s0.inp.drop pos
  buf : s.buf = s0.inp.take pos ++ s0.buf.drop pos

theorem filled_step {s0 s : Inp} {pos n : Nat} (h : Filled s0 s pos) :
    Filled s0 (s.fill pos (s.moves pos n)) (pos + s.moves pos n) := by
  have hl := h.len
  have hi : s.inp.length = s0.inp.length - pos := by rw [h.inp]; simp
  have hm1 : s.moves pos n ≤ s0.buf.length - pos := by unfold Inp.moves; omega
  have hm2 : s.moves pos n ≤ s0.inp.length - pos := by unfold Inp.moves; omega
  have hp := h.room
  have ha := h.avail
  generalize s.moves pos n = m at hm1 hm2 ⊢
  have ht : (s0.inp.take pos).length = pos := by rw [List.length_take]; omega
  have hb : (s.fill pos m).buf = s0.inp.take (pos + m) ++ s0.buf.drop (pos + m) := by
    simp only [Inp.fill]
    rw [h.buf, h.inp, List.take_left' ht, take_step, List.drop_append, ht,
      List.drop_eq_nil_of_le (by rw [ht]; omega), List.nil_append, List.drop_drop]
    congr 2; omega
  refine ⟨?_, by omega, by omega, ?_, hb⟩
  · rw [hb]; simp; omega
  · simp only [Inp.fill]; rw [h.inp, List.drop_drop]

theorem netRecv_spec {s0 s : Inp} {pos : Nat} {as : List Ans} {r : NetRes} {s' : Inp} {as' : List Ans}
    (hf : Filled s0 s pos) (ha : NoError as) (h : netRecv s pos as = some (r, s', as')) :
    NoError as' ∧ ((r = .ok ∧ Filled s0 s' s0.buf.length) ∨ ∃ p, r = .block p ∧ Filled s0 s' p) := by
  induction as generalizing s pos r with
  | nil =>
    simp only [netRecv] at h
    split at h
    · cases h
    · cases h
      have h1 := hf.room; have h2 := hf.len
      exact ⟨ha, .inl ⟨rfl, by rw [show s0.buf.length = pos by omega]; exact hf⟩⟩
  | cons a as ih =>
    simp only [netRecv] at h
    have ha' : NoError as := fun e he => ha e (List.mem_cons_of_mem _ he)
    split at h
    · cases a with
      | again => cases h; exact ⟨ha', .inr ⟨pos, rfl, hf⟩⟩
      | err e => exact absurd List.mem_cons_self (ha e)
      | moved n => exact ih (filled_step hf) ha' h
    · cases h
      have h1 := hf.room; have h2 := hf.len
      exact ⟨ha, .inl ⟨rfl, by rw [show s0.buf.length = pos by omega]; exact hf⟩⟩

theorem recv_spec {s0 s : Inp} {fuel pos : Nat} {as : List Ans} (hf : Filled s0 s pos) (ha : NoError as) {r : NetRes}
    {s' : Inp} (h : recv fuel pos s as = .done r s') : r = .ok ∧ Filled s0 s' s0.buf.length := by
  induction fuel generalizing s pos as with
  | zero => simp only [recv] at h; cases h
  | succ fuel ih =>
    simp only [recv] at h
    cases hn : netRecv s pos as with
    | none => rw [hn] at h; cases h
    | some t =>
      obtain ⟨r', s1, as'⟩ := t
      rw [hn] at h
      obtain ⟨ha', ⟨rfl, hb⟩ | ⟨p, rfl, hb⟩⟩ := netRecv_spec hf ha hn
      · simp only [NetRes.two] at h
        cases h
        exact ⟨rfl, hb⟩
      · simp only [NetRes.two] at h
        exact ih hb ha' h

/-- C62, partial (calls of `recv` do not fail): when a receive is done, the buffer holds the next bytes of the stream
in order, as many as it has room for, and the rest of the stream is still to be read -/
theorem C62_recv_partial (inp buf : List UInt8) (as : List Ans) (ha : NoError as) (fuel : Nat) (r : NetRes) (s : Inp)
    (h : recv fuel 0 { inp := inp, buf := buf } as = .done r s) :
    r = .ok ∧ buf.length ≤ inp.length ∧ s.buf = inp.take buf.length ∧ s.inp = inp.drop buf.length := by
  have h0 : Filled { inp := inp, buf := buf } { inp := inp, buf := buf } 0 := ⟨rfl, by simp, by simp, rfl, by simp⟩
  obtain ⟨h1, h2⟩ := recv_spec h0 ha h
  exact ⟨h1, h2.avail, by rw [h2.buf]; simp, h2.inp⟩

/-- C62 is false of the code: when the peer has closed the connection before the buffer is full, `net-recv` asks
for ever and never gives a result -/
theorem C62_recv_closed_wrong (inp buf : List UInt8) (pos : Nat) (hp : pos + inp.length < buf.length)
    (as : List Nat) : netRecv { inp := inp, buf := buf } pos (as.map .moved) = none := by
  suffices h : ∀ s : Inp, ∀ pos, pos + s.inp.length < s.buf.length → netRecv s pos (as.map .moved) = none from
    h _ _ hp
  clear hp
  induction as with
  | nil => intro s pos hp; simp only [List.map, netRecv]; rw [if_pos (by omega)]
  | cons a as ih =>
    intro s pos hp
    simp only [List.map, netRecv]
    rw [if_pos (by omega)]
    apply ih
    have hm : s.moves pos a ≤ s.inp.length := by unfold Inp.moves; omega
    generalize s.moves pos a = m at hm ⊢
    simp only [Inp.fill, List.length_append, List.length_take, List.length_drop]
    omega

/-- C62 is false of the code: after an error a receive goes on at the position given by the error number, or reports
that the buffer is full -/
theorem C62_recv_error_wrong (inp buf : List UInt8) (e : Nat) (hb : buf ≠ []) (he : buf.length ≤ e) (as : List Ans) :
    recv 2 0 { inp := inp, buf := buf } (.err e :: as) = .done .ok { inp := inp, buf := buf } := by
  have h0 : 0 < buf.length := List.length_pos_iff.mpr hb
  have h1 : ¬ e < buf.length := by omega
  cases as <;> simp [recv, netRecv, NetRes.two, h0, h1]

/-! ### addresses -/

theorem takeWhile_host (host port : List UInt8) (h : (58 : UInt8) ∉ host) :
    (host ++ 58 :: port).takeWhile (· != 58) = host := by
  induction host with
  | nil => simp
  | cons a host ih =>
    have h1 : a ≠ 58 := fun e => h (by simp [e])
    simp only [List.cons_append, List.takeWhile_cons]
    rw [if_pos (by simpa using h1), ih (fun e => h (List.mem_cons_of_mem _ e))]

/-- C62: an address `host:port` is split at its first colon -/
theorem C62_address (host port : List UInt8) (h : (58 : UInt8) ∉ host) :
    splitHostAndPort (host ++ 58 :: port) = some (host, port) := by
  unfold splitHostAndPort
  rw [takeWhile_host host port h]
  simp

/-- C62: a text without a colon is no address -/
theorem C62_no_address (s : List UInt8) (h : (58 : UInt8) ∉ s) : splitHostAndPort s = none := by
  unfold splitHostAndPort
  have : s.takeWhile (· != 58) = s := by
    induction s with
    | nil => rfl
    | cons a s ih =>
      have h1 : a ≠ 58 := fun e => h (by simp [e])
      simp only [List.takeWhile_cons]
      rw [if_pos (by simpa using h1), ih (fun e => h (List.mem_cons_of_mem _ e))]
  rw [this]
  simp

/-! ### cases -/

/-- five bytes in three pieces, with two waits -/
example : send [1, 2, 3, 4, 5] 3 0 [] [.moved 2, .again, .moved 1, .again, .moved 9] = .done .ok [1, 2, 3, 4, 5] :=
  rfl
example : NoError [.moved 2, .again, .moved 1, .again, .moved 9] := by simp [NoError]

/-- four bytes out of six -/
example : recv 3 0 { inp := [1, 2, 3, 4, 5, 6], buf := [0, 0, 0, 0] } [.moved 3, .again, .moved 3]
    = .done .ok { inp := [5, 6], buf := [1, 2, 3, 4] } := rfl

/-- one byte of two came, then the peer closed -/
example (k : Nat) : netRecv { inp := [7], buf := [0, 0] } 0 ((List.replicate k 1).map .moved) = none :=
  C62_recv_closed_wrong [7] [0, 0] 0 (by decide) _

end Cora.Net
