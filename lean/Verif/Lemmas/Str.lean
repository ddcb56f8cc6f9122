import Verif.Model.Str
import Verif.Spec.Bytes
namespace Cora
open Spec

/-! ### search -/

theorem occursAt_iff (s p : Bytes) (i : Nat) :
    OccursAt s p i ↔ i + p.length ≤ s.length ∧ ∀ j, j < p.length → s[i + j]? = p[j]? := by
  constructor
  · rintro ⟨a, b, rfl, rfl⟩
    refine ⟨by simp, ?_⟩
    intro j hj
    rw [List.append_assoc, List.getElem?_append_right (by omega), List.getElem?_append_left (by omega)]
    congr 1; omega
  · rintro ⟨h1, h2⟩
    refine ⟨s.take i, s.drop (i + p.length), ?_, by simp; omega⟩
    have hp : p = (s.drop i).take p.length := by
      apply List.ext_getElem?
      intro j
      by_cases hj : j < p.length
      · rw [List.getElem?_take_of_lt hj, List.getElem?_drop, h2 j hj]
      · rw [List.getElem?_eq_none (by omega), List.getElem?_eq_none (by simp; omega)]
    conv => rhs; rw [hp]
    have e : s.drop (i + p.length) = (s.drop i).drop p.length := by rw [List.drop_drop]
    have e2 : (List.take p.length (List.drop i s)).length = p.length := by simp; omega
    rw [List.append_assoc, e2, e, List.take_append_drop, List.take_append_drop]

theorem strStrInner_spec (h n : Bytes) (pos : Nat) (hle : pos + n.length ≤ h.length) (i : Nat) (hi : i ≤ n.length)
    (hpre : ∀ j, j < i → h[pos + j]? = n[j]?) :
    (strStrInner h n pos i = .full ∧ OccursAt h n pos) ∨ (strStrInner h n pos i = .mismatch ∧ ¬ OccursAt h n pos) := by
  fun_induction strStrInner h n pos i with
  | case1 i hlt hge => omega
  | case2 i hlt hge hne =>
    right; refine ⟨rfl, ?_⟩
    rw [occursAt_iff]
    rintro ⟨_, h2⟩
    apply hne
    rw [h2 i hlt]
    simp [hlt]
  | case3 i hlt hge heq ih =>
    apply ih (by omega)
    intro j hj
    by_cases h' : j < i
    · exact hpre j h'
    · have : j = i := by omega
      subst this
      simp only [ne_eq, Decidable.not_not] at heq
      rw [heq]; simp [hlt]
  | case4 i hlt =>
    left; refine ⟨rfl, ?_⟩
    rw [occursAt_iff]
    exact ⟨hle, fun j hj => hpre j (by omega)⟩

theorem strStrLoop_spec (h n : Bytes) (pos : Nat) (hpre : ∀ j, j < pos → ¬ OccursAt h n j) :
    (∃ i : Nat, strStrLoop h n pos = i ∧ OccursAt h n i ∧ ∀ j, j < i → ¬ OccursAt h n j) ∨
    (strStrLoop h n pos = -1 ∧ ∀ j, ¬ OccursAt h n j) := by
  fun_induction strStrLoop h n pos with
  | case1 pos hle hin =>
    rcases strStrInner_spec h n pos hle 0 (by omega) (by omega) with ⟨h1, _⟩ | ⟨h1, _⟩ <;> rw [hin] at h1 <;> cases h1
  | case2 pos hle hin ih =>
    rcases strStrInner_spec h n pos hle 0 (by omega) (by omega) with ⟨h1, _⟩ | ⟨h1, hno⟩
    · rw [hin] at h1; cases h1
    · apply ih
      intro j hj
      by_cases h' : j < pos
      · exact hpre j h'
      · have : j = pos := by omega
        subst this; exact hno
  | case3 pos hle hin =>
    rcases strStrInner_spec h n pos hle 0 (by omega) (by omega) with ⟨_, hyes⟩ | ⟨h1, _⟩
    · left; exact ⟨pos, rfl, hyes, hpre⟩
    · rw [hin] at h1; cases h1
  | case4 pos hle =>
    right; refine ⟨rfl, ?_⟩
    intro j hj
    by_cases h' : j < pos
    · exact hpre j h' hj
    · rw [occursAt_iff] at hj; omega

theorem strStr_spec (h n : Bytes) :
    (∃ i : Nat, strStr h n = i ∧ OccursAt h n i ∧ ∀ j, j < i → ¬ OccursAt h n j) ∨
    (strStr h n = -1 ∧ ∀ j, ¬ OccursAt h n j) := strStrLoop_spec h n 0 (by omega)

/-! ### comparison -/

theorem charVal_eq_signedByte (c : Byte) : charVal c = signedByte c := by
  unfold charVal signedByte
  have : c < 128 ↔ c.toNat < 128 := by rw [UInt8.lt_iff_toNat_lt]; rfl
  simp [this]

theorem charVal_inj {a b : Byte} (h : charVal a = charVal b) : a = b := by
  unfold charVal at h
  have ha := a.toNat_lt
  have hb := b.toNat_lt
  apply UInt8.toNat_inj.mp
  split at h <;> split at h <;> omega

theorem toInt32_id {x : Int} (h1 : -(2:Int) ^ 31 ≤ x) (h2 : x < 2 ^ 31) : toInt32 x = x := by
  unfold toInt32
  apply Int.bmod_eq_of_le <;> omega

theorem strCmpLoop_spec (a b : Bytes) (l1 l2 : Nat) (hl : (l1 : Int) - l2 = (a.length : Int) - b.length)
    (h1 : l1 < 2 ^ 31) (h2 : l2 < 2 ^ 31) :
    (strCmpLoop l1 l2 a b < 0 ↔ LexLt a b) ∧ (strCmpLoop l1 l2 a b = 0 ↔ a = b) ∧
    (strCmpLoop l1 l2 a b > 0 ↔ LexLt b a) := by
  have hid : toInt32 ((l1 : Int) - l2) = (l1 : Int) - l2 := toInt32_id (by omega) (by omega)
  induction a generalizing b with
  | nil =>
    cases b with
    | nil =>
      simp only [strCmpLoop, hid]
      simp at hl
      refine ⟨⟨fun h => by omega, fun h => by cases h⟩, ⟨fun _ => by trivial, fun _ => by omega⟩, ⟨fun h => by omega, fun h => by cases h⟩⟩
    | cons y ys =>
      simp only [strCmpLoop, hid]
      simp at hl
      refine ⟨⟨fun _ => .nil _ _, fun _ => by omega⟩, ⟨fun h => by omega, fun h => by cases h⟩, ⟨fun h => by omega, fun h => by cases h⟩⟩
  | cons x xs ih =>
    cases b with
    | nil =>
      simp only [strCmpLoop, hid]
      simp at hl
      refine ⟨⟨fun _ => by omega, fun h => by cases h⟩, ⟨fun h => by omega, fun h => by cases h⟩, ⟨fun h => .nil _ _, fun h => by omega⟩⟩
    | cons y ys =>
      simp only [strCmpLoop]
      by_cases hgt : charVal x > charVal y
      · rw [if_pos hgt]
        have hlt : signedByte y < signedByte x := by rw [← charVal_eq_signedByte, ← charVal_eq_signedByte]; exact hgt
        refine ⟨⟨fun h => by omega, fun h => ?_⟩, ⟨fun h => by omega, fun h => ?_⟩, ⟨fun _ => .head hlt, fun _ => by omega⟩⟩
        · cases h <;> omega
        · simp at h; rw [h.1] at hgt; omega
      · rw [if_neg hgt]
        by_cases hlt : charVal x < charVal y
        · rw [if_pos hlt]
          have hlt' : signedByte x < signedByte y := by rw [← charVal_eq_signedByte, ← charVal_eq_signedByte]; exact hlt
          refine ⟨⟨fun h => .head hlt', fun h => by omega⟩, ⟨fun h => by omega, fun h => ?_⟩, ⟨fun h => by omega, fun h => ?_⟩⟩
          · simp at h; rw [h.1] at hlt; omega
          · cases h <;> omega
        · rw [if_neg hlt]
          have he : x = y := charVal_inj (by omega)
          subst he
          obtain ⟨i1, i2, i3⟩ := ih ys (by simp at hl; omega)
          rw [i1, i2, i3]
          refine ⟨⟨.tail, fun h => ?_⟩, ⟨fun h => by rw [h], fun h => by simpa using h⟩, ⟨.tail, fun h => ?_⟩⟩
          · cases h with
            | head h => omega
            | tail h => exact h
          · cases h with
            | head h => omega
            | tail h => exact h

theorem strCmp_spec (a b : Bytes) (h1 : a.length < 2 ^ 31) (h2 : b.length < 2 ^ 31) :
    (strCmp a b < 0 ↔ LexLt a b) ∧ (strCmp a b = 0 ↔ a = b) ∧ (strCmp a b > 0 ↔ LexLt b a) :=
  strCmpLoop_spec a b _ _ rfl h1 h2

theorem LexLt_trans {a b c : Bytes} (h1 : LexLt a b) (h2 : LexLt b c) : LexLt a c := by
  induction h1 generalizing c with
  | nil y ys => cases h2 <;> exact .nil _ _
  | head h => cases h2 with
    | head h' => exact .head (by omega)
    | tail h' => exact .head h
  | tail h ih => cases h2 with
    | head h' => exact .head h'
    | tail h' => exact .tail (ih h')

/-! ### sub-strings -/

theorem readRange_nat (s : Bytes) (i n : Nat) (h : i + n ≤ s.length) :
    readRange s i n = some ((s.drop i).take n) := by
  have : (0:Int) ≤ i ∧ (0:Int) ≤ n ∧ (i:Int) + n ≤ s.length := by omega
  simp [readRange, this]

theorem strSub_nat (s : Bytes) (i j : Nat) (hij : i ≤ j) (hj : j ≤ s.length) :
    strSub s i j = some ((s.drop i).take (j - i)) := by
  have h1 : ptrByIdx s.length (i : Int) = some (i : Int) := by
    unfold ptrByIdx; rw [if_pos (by omega), if_pos (by omega)]
  have h2 : ptrByIdx s.length (j : Int) = some (j : Int) := by
    unfold ptrByIdx; rw [if_pos (by omega), if_pos (by omega)]
  unfold strSub
  rw [h1, h2]
  simp only
  by_cases h : (i : Int) ≥ j
  · have : j - i = 0 := by omega
    rw [if_pos h, this]; simp
  · rw [if_neg h]
    have e : (j : Int) - i = ((j - i : Nat) : Int) := by omega
    rw [e, readRange_nat s i (j - i) (by omega)]

theorem strSub_split {s a p b : Bytes} (h : s = a ++ p ++ b) :
    strSub s 0 (a.length : Int) = some a ∧ strSub s ((a.length : Int) + p.length) s.length = some b := by
  subst h
  constructor
  · have := strSub_nat (a ++ p ++ b) 0 a.length (by omega) (by simp)
    simpa using this
  · have := strSub_nat (a ++ p ++ b) (a.length + p.length) (a ++ p ++ b).length (by simp) (Nat.le_refl _)
    rw [Int.natCast_add] at this
    rw [this]
    have e : List.drop (a.length + p.length) (a ++ p ++ b) = b := by
      rw [← List.length_append, List.drop_left]
    rw [e, List.take_of_length_le (by simp; omega)]

/-! ### buffers -/

/-- representation invariant of a buffer -/
structure BufInv (b : StrBuf) : Prop where
  room : b.len + 1 ≤ b.cap
  nul : b.mem[b.len]? = some 0

@[simp] theorem malloc_length (j : Nat → Byte) (n : Nat) : (malloc j n).length = n := by simp [malloc]

theorem write_spec {m : Bytes} {i : Nat} {bs : Bytes} (h : i + bs.length ≤ m.length) :
    write m i bs = some (m.take i ++ bs ++ m.drop (i + bs.length)) := by simp [write, h]

theorem strNew_spec (j : Nat → Byte) {cap : Nat} (h : 0 < cap) :
    ∃ b, strNew j cap = some b ∧ BufInv b ∧ b.cap = cap ∧ b.toStr = [] := by
  refine ⟨⟨(malloc j cap).take 0 ++ [0] ++ (malloc j cap).drop 1, 0⟩, ?_, ⟨?_, ?_⟩, ?_, ?_⟩
  · unfold strNew
    rw [if_pos h, write_spec (by simp; omega)]; simp
  · simp [StrBuf.cap]
  · simp
  · simp [StrBuf.cap]; omega
  · simp [StrBuf.toStr]

/-- two consecutive writes: the data and its terminating NUL -/
theorem write2_spec {m s : Bytes} {i : Nat} (h : i + s.length + 1 ≤ m.length) :
    ∃ m', (do let m1 ← write m i s; write m1 (i + s.length) [0]) = some m' ∧
      m'.length = m.length ∧ m'.take (i + s.length) = m.take i ++ s ∧ m'[i + s.length]? = some 0 := by
  have hlen : (m.take i ++ s).length = i + s.length := by simp; omega
  have hA : (m.take i ++ s ++ m.drop (i + s.length)).length = m.length := by simp; omega
  refine ⟨m.take i ++ s ++ [0] ++ m.drop (i + s.length + 1), ?_, by simp; omega, ?_, ?_⟩
  · rw [write_spec (by omega)]
    simp only [Option.bind_eq_bind, Option.bind_some]
    rw [write_spec (by rw [hA]; simp; omega)]
    congr 1
    rw [← hlen, List.take_left, List.length_singleton, ← List.drop_drop, List.drop_left, List.drop_drop]
  · rw [List.append_assoc, ← hlen, List.take_left]
  · rw [List.append_assoc, List.getElem?_append_right (by omega), hlen]
    simp

theorem strCpy_spec (j : Nat → Byte) {b : StrBuf} (_hb : BufInv b) (s : Bytes) :
    ∃ b', strCpy j b s = some b' ∧ BufInv b' ∧ b'.toStr = s ∧ b.cap ≤ b'.cap := by
  have key : ∀ c : StrBuf, s.length + 1 ≤ c.cap → ∃ b',
      (do let m ← write c.mem 0 s; let m ← write m s.length [0]; pure (⟨m, s.length⟩ : StrBuf)) = some b' ∧
      BufInv b' ∧ b'.toStr = s ∧ b'.cap = c.cap := by
    intro c hc
    obtain ⟨m', h1, h2, h3, h4⟩ := write2_spec (m := c.mem) (s := s) (i := 0) (by unfold StrBuf.cap at hc; omega)
    simp only [Nat.zero_add] at h1 h3 h4
    refine ⟨⟨m', s.length⟩, ?_, ⟨?_, h4⟩, ?_, by simp [StrBuf.cap, h2]⟩
    · cases hw : write c.mem 0 s with
      | none => simp [hw] at h1
      | some m1 =>
        simp only [hw, Option.bind_eq_bind, Option.bind_some] at h1 ⊢
        simp [h1]
    · simp [StrBuf.cap, h2]; unfold StrBuf.cap at hc; omega
    · simpa [StrBuf.toStr] using h3
  unfold strCpy
  by_cases h : b.cap < s.length + 1
  · obtain ⟨c, hc, _, hcap, _⟩ := strNew_spec j (cap := s.length + 1) (by omega)
    obtain ⟨b', h1, h2, h3, h4⟩ := key c (by omega)
    rw [if_pos h, hc]
    exact ⟨b', by simpa using h1, h2, h3, by omega⟩
  · obtain ⟨b', h1, h2, h3, h4⟩ := key b (by omega)
    rw [if_neg h]
    exact ⟨b', by simpa using h1, h2, h3, by omega⟩

theorem toStr_length {b : StrBuf} (hb : BufInv b) : b.toStr.length = b.len := by
  have := hb.room
  unfold StrBuf.cap at this
  simp [StrBuf.toStr]; omega

theorem strBufReserve_spec (j : Nat → Byte) {b : StrBuf} (hb : BufInv b) (n : Nat) :
    ∃ b', strBufReserve j b n = some b' ∧ BufInv b' ∧ b'.toStr = b.toStr ∧ n ≤ b'.cap ∧ b'.len = b.len := by
  unfold strBufReserve
  by_cases h : b.cap ≥ n
  · rw [if_pos h]; exact ⟨b, rfl, hb, rfl, h, rfl⟩
  · rw [if_neg h]
    obtain ⟨c, hc, hci, hcap, _⟩ := strNew_spec j (cap := n) (by have := hb.room; omega)
    obtain ⟨b', h1, h2, h3, h4⟩ := strCpy_spec j hci b.toStr
    refine ⟨b', by simp [hc, h1], h2, h3, by omega, ?_⟩
    rw [← toStr_length h2, h3, toStr_length hb]

theorem extend_spec {b : StrBuf} {s : Bytes} (h : b.len + s.length + 1 ≤ b.cap) :
    ∃ b', (do let m ← write b.mem b.len s; let m ← write m (b.len + s.length) [0]; pure (⟨m, b.len + s.length⟩ : StrBuf)) = some b' ∧
      BufInv b' ∧ b'.toStr = b.toStr ++ s := by
  obtain ⟨m', h1, h2, h3, h4⟩ := write2_spec (m := b.mem) (s := s) (i := b.len) h
  refine ⟨⟨m', b.len + s.length⟩, ?_, ⟨?_, h4⟩, ?_⟩
  · cases hw : write b.mem b.len s with
    | none => simp [hw] at h1
    | some m1 =>
      simp only [hw, Option.bind_eq_bind, Option.bind_some] at h1 ⊢
      simp [h1]
  · simp [StrBuf.cap, h2]; unfold StrBuf.cap at h; omega
  · simpa [StrBuf.toStr] using h3

theorem strCat_spec (j : Nat → Byte) {b : StrBuf} (hb : BufInv b) (s : Bytes) :
    ∃ b', strCat j b s = some b' ∧ BufInv b' ∧ b'.toStr = b.toStr ++ s := by
  obtain ⟨c, hc, hci, hcs, hcap, hlen⟩ := strBufReserve_spec j hb (b.len + s.length + 1)
  obtain ⟨b', h1, h2, h3⟩ := extend_spec (b := c) (s := s) (by omega)
  refine ⟨b', ?_, h2, by rw [h3, hcs]⟩
  unfold strCat
  rw [hc]; simpa using h1

theorem growCap_ge (n : Nat) (h : 0 < n) : n + 1 ≤ growCap n := by
  unfold growCap; split
  · omega
  · split <;> omega

theorem strAppend_spec (j : Nat → Byte) {b : StrBuf} (hb : BufInv b) (c : Byte) :
    ∃ b', strAppend j b c = some b' ∧ BufInv b' ∧ b'.toStr = b.toStr ++ [c] := by
  unfold strAppend
  by_cases h : b.len + 2 > b.cap
  · obtain ⟨d, hd, hdi, hds, hcap, hlen⟩ := strBufReserve_spec j hb (growCap (b.len + 1))
    have := growCap_ge (b.len + 1) (by omega)
    obtain ⟨b', h1, h2, h3⟩ := extend_spec (b := d) (s := [c]) (by simp; omega)
    rw [if_pos h, hd]
    exact ⟨b', by simpa using h1, h2, by rw [h3, hds]⟩
  · obtain ⟨b', h1, h2, h3⟩ := extend_spec (b := b) (s := [c]) (by simp; omega)
    rw [if_neg h]
    exact ⟨b', by simpa using h1, h2, h3⟩

theorem strShrink_spec {b : StrBuf} (hb : BufInv b) (n : Nat) :
    ∃ b', strShrink b n = some b' ∧ BufInv b' ∧ b'.toStr = b.toStr.take (b.toStr.length - n) := by
  have hroom := hb.room
  have hl := toStr_length hb
  unfold StrBuf.cap at hroom
  have key : ∀ k, k ≤ b.len → ∃ b', (do let m ← write b.mem k [0]; pure (⟨m, k⟩ : StrBuf)) = some b' ∧ BufInv b' ∧ b'.toStr = b.toStr.take k := by
    intro k hk
    refine ⟨⟨b.mem.take k ++ [0] ++ b.mem.drop (k + 1), k⟩, ?_, ⟨?_, ?_⟩, ?_⟩
    · rw [write_spec (by simp; omega)]; simp
    · simp [StrBuf.cap]; omega
    · have e : (b.mem.take k).length = k := by simp; omega
      show (b.mem.take k ++ [0] ++ b.mem.drop (k + 1))[k]? = some 0
      rw [List.append_assoc, List.getElem?_append_right (by omega), e]; simp
    · have e : (b.mem.take k).length = k := by simp; omega
      simp only [StrBuf.toStr]
      rw [List.append_assoc, List.take_append_of_le_length (by omega), List.take_take, List.take_take, Nat.min_self, Nat.min_eq_left hk]
  unfold strShrink
  by_cases h : n ≥ b.len
  · rw [if_pos h]
    obtain ⟨b', h1, h2, h3⟩ := key 0 (by omega)
    exact ⟨b', h1, h2, by rw [h3, hl]; congr 1; omega⟩
  · rw [if_neg h]
    obtain ⟨b', h1, h2, h3⟩ := key (b.len - n) (by omega)
    exact ⟨b', h1, h2, by rw [h3, hl]⟩

theorem fromBlk_spec (j : Nat → Byte) (s : Bytes) :
    ∃ b, fromBlk j s = some b ∧ BufInv b ∧ b.toStr = s := by
  obtain ⟨m', h1, h2, h3, h4⟩ := write2_spec (m := malloc j (s.length + 1)) (s := s) (i := 0) (by simp)
  simp only [Nat.zero_add] at h1 h3 h4
  refine ⟨⟨m', s.length⟩, ?_, ⟨?_, h4⟩, by simpa [StrBuf.toStr] using h3⟩
  · unfold fromBlk
    cases hw : write (malloc j (s.length + 1)) 0 s with
    | none => simp [hw] at h1
    | some m1 =>
      simp only [hw, Option.bind_eq_bind, Option.bind_some] at h1 ⊢
      simp [h1]
  · simp [StrBuf.cap, h2]

end Cora
