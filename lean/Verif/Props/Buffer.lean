import Verif.Model.Buffer
import Verif.Lemmas.CodeText
import Verif.Props.Values
import Verif.Props.Reader
/-
C87: byte buffers. C88: numerals, remainders.
-/
open Spec
namespace Cora.Buffer

/-- what is known of the buffer is so -/
def Fits (b : Block) (k : Buf.Known) : Prop :=
  b.len = k.length ∧ b.mem.length = b.len + 1 ∧ ∀ (i : Nat) c, k[i]? = some (some c) → b.mem[i]? = some c

/-- all of them -/
def FitsAll (h : List Block) (a : List Buf.Known) : Prop :=
  h.length = a.length ∧ ∀ (i : Nat) b k, h[i]? = some b → a[i]? = some k → Fits b k

theorem malloc_length (junk : Nat → Byte) (n : Nat) : (malloc junk n).length = n := by simp [malloc]

theorem fitsAll_snoc {h : List Block} {a : List Buf.Known} {b : Block} {k : Buf.Known} (ha : FitsAll h a) (hb : Fits b k) :
    FitsAll (h ++ [b]) (a ++ [k]) := by
  refine ⟨by simp [ha.1], fun i b' k' h1 h2 => ?_⟩
  by_cases hi : i < h.length
  · rw [List.getElem?_append_left hi] at h1
    rw [List.getElem?_append_left (by rw [← ha.1]; exact hi)] at h2
    exact ha.2 i b' k' h1 h2
  · have h3 : i = h.length := by
      have := List.getElem?_eq_some_iff.mp h1
      obtain ⟨h4, _⟩ := this
      simp at h4
      omega
    subst h3
    rw [List.getElem?_append_right (Nat.le_refl _)] at h1
    rw [List.getElem?_append_right (by rw [ha.1]; exact Nat.le_refl _), ha.1] at h2
    simp at h1 h2
    subst h1 h2
    exact hb

theorem fits_new {junk : Nat → Byte} {n : Nat} (hn : n + 13 < 64 * 1024 * 1024) :
    ∃ b, builtinBytes junk n = some b ∧ Fits b (List.replicate n none) := by
  refine ⟨⟨n, malloc junk (n + 1)⟩, ?_, by simp, malloc_length _ _, fun i c h => ?_⟩
  · rw [builtinBytes, toInt32_id (by omega) (by omega), makeBytes, if_pos (by omega)]
    simp
  · rw [List.getElem?_replicate] at h
    split at h <;> simp at h

theorem fits_str {junk : Nat → Byte} {s : Bytes} (hn : s.length + 13 < 64 * 1024 * 1024) :
    ∃ b, makeString junk s = some b ∧ Fits b (s.map some) := by
  have h1 : makeBytes junk s.length = some ⟨s.length, malloc junk (s.length + 1)⟩ := by
    rw [makeBytes, if_pos (by omega)]
    simp
  have h2 : write (malloc junk (s.length + 1)) 0 s = some (s ++ (malloc junk (s.length + 1)).drop s.length) := by
    rw [write, if_pos (by rw [malloc_length]; omega)]
    simp
  have h3 : write (s ++ (malloc junk (s.length + 1)).drop s.length) s.length [0] = some (s ++ [0]) := by
    rw [write, if_pos (by simp [malloc_length])]
    simp [malloc_length]
  refine ⟨⟨s.length, s ++ [0]⟩, by simp [makeString, h1, h2, h3], by simp, by simp, fun i c h => ?_⟩
  simp only [List.getElem?_map, Option.map_eq_some_iff, Option.some.injEq] at h
  obtain ⟨_, h, rfl⟩ := h
  obtain ⟨hi, h⟩ := List.getElem?_eq_some_iff.mp h
  rw [List.getElem?_append_left hi]
  simp [hi, h]

theorem readRange_some {s : Bytes} {i n : Nat} (h : i + n ≤ s.length) : readRange s i n = some ((s.drop i).take n) := by
  rw [readRange, if_pos (by omega)]
  simp

theorem fits_paste {x : Block} {k : Buf.Known} (hx : Fits x k) {i : Nat} {bs : Bytes} {kb : Buf.Known} (hl : bs.length = kb.length)
    (hk : ∀ (j : Nat) c, kb[j]? = some (some c) → bs[j]? = some c) (hi : i + bs.length ≤ k.length) :
    ∃ m, write x.mem i bs = some m ∧ Fits ⟨x.len, m⟩ (Buf.paste k i kb) := by
  obtain ⟨h1, h2, h3⟩ := hx
  refine ⟨x.mem.take i ++ bs ++ x.mem.drop (i + bs.length), by rw [write, if_pos (by omega)], ?_, ?_, ?_⟩
  · simp [Buf.paste, ← h1]; omega
  · simp; omega
  · intro j c hj
    unfold Buf.paste at hj
    by_cases a1 : j < i
    · rw [List.append_assoc, List.getElem?_append_left (by simp; omega), List.getElem?_take_of_lt a1] at hj ⊢
      exact h3 j c hj
    · by_cases a2 : j < i + bs.length
      · rw [List.append_assoc, List.getElem?_append_right (by simp; omega), List.getElem?_append_left (by simp; omega)] at hj ⊢
        simp only [List.length_take] at hj ⊢
        rw [show min i x.mem.length = i by omega]
        rw [show min i k.length = i by omega] at hj
        exact hk _ c hj
      · rw [List.getElem?_append_right (by simp; omega)] at hj ⊢
        simp only [List.length_append, List.length_take, List.getElem?_drop] at hj ⊢
        rw [show min i x.mem.length = i by omega, show i + bs.length + (j - (i + bs.length)) = j by omega]
        rw [show min i k.length = i by omega, show i + kb.length + (j - (i + kb.length)) = j by omega] at hj
        exact h3 j c hj

theorem fitsAll_set {h : List Block} {a : List Buf.Known} {t : Nat} {b : Block} {k : Buf.Known} (ha : FitsAll h a) (hb : Fits b k) :
    FitsAll (h.set t b) (a.set t k) := by
  refine ⟨by simp [ha.1], fun i b' k' h1 h2 => ?_⟩
  rw [List.getElem?_set] at h1 h2
  split at h1
  · rename_i he
    subst he
    simp only [if_true] at h2
    split at h1 <;> simp at h1
    split at h2 <;> simp at h2
    subst h1 h2
    exact hb
  · rename_i he
    rw [if_neg he] at h2
    exact ha.2 i b' k' h1 h2

theorem fits_step {h : List Block} {a a' : List Buf.Known} (ha : FitsAll h a) {junk : Nat → Byte} {o : Buf.Op} (ho : o.run a = some a')
    (hs : ∀ (i : Nat) k, a'[i]? = some k → k.length + 13 < 64 * 1024 * 1024) :
    ∃ h', (∀ r, run h ((junk, o) :: r) = run h' r) ∧ FitsAll h' a' := by
  cases o with
  | new n =>
    simp only [Buf.Op.run, Option.some.injEq] at ho
    subst ho
    obtain ⟨b, h1, h2⟩ := fits_new (junk := junk) (n := n) (by simpa using hs a.length (List.replicate n none) (by simp))
    exact ⟨_, fun r => by simp [run, h1], fitsAll_snoc ha h2⟩
  | str s =>
    simp only [Buf.Op.run, Option.some.injEq] at ho
    subst ho
    obtain ⟨b, h1, h2⟩ := fits_str (junk := junk) (s := s) (by simpa using hs a.length (s.map some) (by simp))
    exact ⟨_, fun r => by simp [run, h1], fitsAll_snoc ha h2⟩
  | copy to i frm j n =>
    simp only [Buf.Op.run] at ho
    split at ho
    · rename_i x y hx hy
      split at ho
      · rename_i hc
        obtain ⟨c1, c2, c3⟩ := hc
        simp only [Option.some.injEq] at ho
        subst ho
        obtain ⟨bx, ex⟩ : ∃ b, h[to]? = some b := by
          have := (List.getElem?_eq_some_iff.mp hx).1
          exact ⟨h[to]'(by rw [ha.1]; exact this), by simp [ha.1, this]⟩
        obtain ⟨by', ey⟩ : ∃ b, h[frm]? = some b := by
          have := (List.getElem?_eq_some_iff.mp hy).1
          exact ⟨h[frm]'(by rw [ha.1]; exact this), by simp [ha.1, this]⟩
        have fx := ha.2 _ _ _ ex hx
        have fy := ha.2 _ _ _ ey hy
        have hr : readRange by'.mem j n = some ((by'.mem.drop j).take n) := readRange_some (by have := fy.2.1; have := fy.1; omega)
        have hlen : ((by'.mem.drop j).take n).length = n := by have := fy.2.1; have := fy.1; simp; omega
        obtain ⟨m, hm, hf⟩ := fits_paste fx (i := i) (bs := (by'.mem.drop j).take n) (kb := (y.drop j).take n)
          (by rw [hlen]; simp; omega) (by
            intro q c hq
            by_cases hqn : q < n
            · rw [List.getElem?_take_of_lt hqn, List.getElem?_drop] at hq ⊢
              exact fy.2.2 _ _ hq
            · rw [List.getElem?_take_eq_none (by omega)] at hq
              simp at hq) (by rw [hlen]; exact c1)
        refine ⟨_, fun r => ?_, fitsAll_set (t := to) ha hf⟩
        have : memcpy h to i frm j n = some (h.set to ⟨bx.len, m⟩) := by
          simp only [memcpy, ex, ey, hr, Option.bind_eq_bind, Option.bind_some]
          rw [if_pos (by constructor <;> omega)]
          simp [hm]
        simp [run, this]
      · simp at ho
    · simp at ho

theorem op_grows {a a' : List Buf.Known} {o : Buf.Op} (h : o.run a = some a') (i : Nat) :
    (∀ k, a[i]? = some k → ∃ k', a'[i]? = some k' ∧ k'.length = k.length) := by
  intro k hk
  have hi := (List.getElem?_eq_some_iff.mp hk).1
  cases o with
  | new n => simp only [Buf.Op.run, Option.some.injEq] at h; subst h; exact ⟨k, by rw [List.getElem?_append_left hi]; exact hk, rfl⟩
  | str n => simp only [Buf.Op.run, Option.some.injEq] at h; subst h; exact ⟨k, by rw [List.getElem?_append_left hi]; exact hk, rfl⟩
  | copy to i' frm j n =>
    simp only [Buf.Op.run] at h
    split at h
    · rename_i x y hx hy
      split at h
      · rename_i hc
        simp only [Option.some.injEq] at h
        subst h
        rw [List.getElem?_set]
        split
        · rename_i he
          subst he
          rw [hx] at hk
          cases hk
          refine ⟨_, by rw [if_pos hi], ?_⟩
          simp [Buf.paste]
          omega
        · exact ⟨k, hk, rfl⟩
      · simp at h
    · simp at h

theorem all_grows : ∀ {os : List Buf.Op} {a a' : List Buf.Known}, Buf.runAll a os = some a' → ∀ (i : Nat) k, a[i]? = some k →
    ∃ k', a'[i]? = some k' ∧ k'.length = k.length
  | [], a, a', h, i, k, hk => by simp only [Buf.runAll, Option.some.injEq] at h; subst h; exact ⟨k, hk, rfl⟩
  | o :: os, a, a', h, i, k, hk => by
    simp only [Buf.runAll, Option.bind_eq_some_iff] at h
    obtain ⟨a1, h1, h2⟩ := h
    obtain ⟨k1, g1, g2⟩ := op_grows h1 i k hk
    obtain ⟨k2, g3, g4⟩ := all_grows h2 i k1 g1
    exact ⟨k2, g3, by omega⟩

theorem run_fits : ∀ {os : List ((Nat → Byte) × Buf.Op)} {h : List Block} {a a' : List Buf.Known}, FitsAll h a →
    Buf.runAll a (os.map (·.2)) = some a' → (∀ (i : Nat) k, a'[i]? = some k → k.length + 13 < 64 * 1024 * 1024) →
    ∃ h', run h os = some h' ∧ FitsAll h' a'
  | [], h, a, a', ha, hr, _ => by
    simp only [List.map_nil, Buf.runAll, Option.some.injEq] at hr
    subst hr
    exact ⟨h, rfl, ha⟩
  | (junk, o) :: os, h, a, a', ha, hr, hs => by
    simp only [List.map_cons, Buf.runAll, Option.bind_eq_some_iff] at hr
    obtain ⟨a1, h1, h2⟩ := hr
    obtain ⟨h', g1, g2⟩ := fits_step (junk := junk) ha h1 (fun i k hk => by
      obtain ⟨k', e1, e2⟩ := all_grows h2 i k hk
      have := hs i k' e1
      omega)
    rw [g1]
    exact run_fits g2 h2 hs

/-- **C87**. A program makes buffers and strings and copies between them, in any order and as often as it likes, with ranges that are in
the buffers (and do not overlap within one), all shorter than 64 MB. Then the length of every buffer is what was asked for, and
`byte-ref` and `string->list` give every byte that was written, the last one written to its place; whatever new memory has in it. -/
theorem C87_buffers_partial {os : List ((Nat → Byte) × Buf.Op)} {a : List Buf.Known} (hr : Buf.runAll [] (os.map (·.2)) = some a)
    (hs : ∀ k ∈ a, k.length + 13 < 64 * 1024 * 1024) :
    ∃ h, run [] os = some h ∧ h.length = a.length ∧ ∀ (t : Nat) b k, h[t]? = some b → a[t]? = some k →
      bytesLength b = k.length ∧ (stringToList b.data).length = k.length ∧
      ∀ (i : Nat) c, k[i]? = some (some c) → bytesRef b.data i = some (signedByte c) ∧ (stringToList b.data)[i]? = some (signedByte c) := by
  obtain ⟨h, h1, h2, h3⟩ := run_fits (h := []) (a := []) ⟨rfl, fun i b k hb => by simp at hb⟩ hr
    (fun i k hk => hs k (List.mem_of_getElem? hk))
  refine ⟨h, h1, h2, fun t b k hb hk => ?_⟩
  obtain ⟨f1, f2, f3⟩ := h3 t b k hb hk
  have hlen : b.data.length = k.length := by simp [Block.data]; omega
  have hsb : ∀ c : Byte, charVal c = signedByte c := fun c => by
    unfold charVal signedByte
    simp only [UInt8.lt_iff_toNat_lt]
    rfl
  refine ⟨by simp [bytesLength, f1], by simp [stringToList, hlen], fun i c hc => ?_⟩
  have hi : i < k.length := (List.getElem?_eq_some_iff.mp hc).1
  have hd : b.data[i]? = some c := by
    rw [Block.data, List.getElem?_take_of_lt (by omega)]
    exact f3 i c hc
  constructor
  · rw [bytesRef, if_pos (by omega)]
    simp [hd, hsb]
  · simp [stringToList, hd, hsb]

/-- a buffer of 4 bytes; "abc" is copied to its places 1 to 3, and its first two known bytes then to the start -/
example : ∃ a, Buf.runAll [] [.new 4, .str [97, 98, 99], .copy 0 1 1 0 3, .copy 0 0 0 2 1] = some a ∧
    a[0]? = some [some 98, some 97, some 98, some 99] := ⟨_, rfl, by decide⟩

/-- **C87** is false without the ranges: nothing checks them. The byte after the last one, which ends the string for C, is overwritten
without an error; further out, memory of other objects is. -/
theorem C87_unchecked_wrong (junk : Nat → Byte) : ∃ h : List Block, run [] [(junk, .str [97]), (junk, .str [98])] = some h ∧
    (∃ b, (memcpy h 0 1 1 0 1).bind (·[0]?) = some b ∧ b.mem = [97, 98]) ∧ memcpy h 0 2 1 0 1 = none ∧ memcpy h 0 0 1 0 3 = none := by
  refine ⟨[⟨1, [97, 0]⟩, ⟨1, [98, 0]⟩], ?_, ?_⟩
  · have h1 : ∀ c, makeString junk [c] = some ⟨1, [c, 0]⟩ := fun c => by
      simp [makeString, makeBytes, write, malloc]
    simp [run, h1]
  · exact ⟨⟨⟨1, [97, 98]⟩, by decide, rfl⟩, by decide, by decide⟩

/-- **C87** is false of bytes from 128 on, if they should be numbers from 0 to 255: they are negative. -/
theorem C87_negative_bytes_wrong (c : Byte) (h : 128 ≤ c) : stringToList [c] = [(c.toNat : Int) - 256] ∧ (c.toNat : Int) - 256 < 0 := by
  have h1 : 128 ≤ c.toNat := by rwa [UInt8.le_iff_toNat_le] at h
  have h2 : c.toNat < 256 := c.toNat_lt
  constructor
  · simp only [stringToList, List.map_cons, List.map_nil, charVal]
    rw [if_neg (by omega)]
  · omega

/-! ### C88 -/

theorem digits_acc : ∀ (s t : Bytes) (acc n : Nat), Buf.digits acc s = some n → Buf.digits acc (s ++ t) = Buf.digits n t
  | [], t, acc, n, h => by simp only [Buf.digits, Option.some.injEq] at h; subst h; rfl
  | c :: s, t, acc, n, h => by
    simp only [Buf.digits, List.cons_append] at h ⊢
    split at h
    · rename_i hc
      rw [if_pos hc]
      exact digits_acc s t _ n h
    · simp at h

theorem digit_one {d : Nat} (hd : d < 10) (acc : Nat) : Buf.digits acc [UInt8.ofNat (48 + d)] = some (acc * 10 + d) := by
  have h1 : (UInt8.ofNat (48 + d)).toNat = 48 + d := by simp; omega
  simp only [Buf.digits]
  rw [if_pos (by rw [UInt8.le_iff_toNat_le, UInt8.le_iff_toNat_le, h1]; constructor <;> simp <;> omega), h1]
  simp

theorem digits_dec (n : Nat) : Buf.digits 0 (Reader.decDigits n) = some n := by
  induction n using Nat.strongRecOn with
  | ind n ih =>
    rw [Reader.decDigits]
    split
    · rename_i h
      rw [digit_one h]
      simp
    · rename_i h
      rw [digits_acc _ _ _ _ (ih (n / 10) (by omega)), digit_one (by omega)]
      congr 1
      omega

theorem dec_first (n : Nat) (h : 0 < n) : ∃ c r, Reader.decDigits n = c :: r ∧ c ≠ 48 ∧ c ≠ 45 := by
  induction n using Nat.strongRecOn with
  | ind n ih =>
    rw [Reader.decDigits]
    split
    · rename_i h10
      refine ⟨_, [], rfl, ?_, ?_⟩
      · intro h1
        have := congrArg UInt8.toNat h1
        simp at this
        omega
      · intro h1
        have := congrArg UInt8.toNat h1
        simp at this
        omega
    · obtain ⟨c, r, h1, h2⟩ := ih (n / 10) (by omega) (by omega)
      exact ⟨c, _, by rw [h1]; rfl, h2⟩

theorem dec_length (k n : Nat) (h : n < 10 ^ (k + 1)) : (Reader.decDigits n).length ≤ k + 1 := by
  induction k generalizing n with
  | zero => rw [Reader.decDigits, if_pos (by simpa using h)]; simp
  | succ k ih =>
    rw [Reader.decDigits]
    split
    · simp
    · have := ih (n / 10) (by rw [Nat.pow_succ] at h; omega)
      simp
      omega

theorem numeral_print (v : Int) : Buf.numeral (Reader.printInt v) = some v := by
  rw [Reader.printInt]
  split
  · rename_i h
    obtain ⟨c, r, h1, h2, h3⟩ := dec_first v.natAbs (by omega)
    have h4 := digits_dec v.natAbs
    rw [h1] at h4 ⊢
    have : Buf.numeral (45 :: c :: r) = (Buf.digits 0 (c :: r)).map fun n : Nat => -(n : Int) := by
      rw [Buf.numeral.eq_4]
      · intro h
        simp at h
      · intro _ h
        simp at h
        exact h2 h.1
    rw [this, h4]
    show some _ = some _
    congr 1
    dsimp only
    omega
  · by_cases hz : v = 0
    · subst hz; decide +kernel
    · obtain ⟨c, r, h1, h2, h3⟩ := dec_first v.natAbs (by omega)
      have h4 := digits_dec v.natAbs
      rw [h1] at h4 ⊢
      have : Buf.numeral (c :: r) = (Buf.digits 0 (c :: r)).map fun n : Nat => (n : Int) := by
        unfold Buf.numeral
        split <;> simp_all
      rw [this, h4]
      show some _ = some _
      congr 1
      dsimp only
      omega

/-- **C88**, text. The text of a number is its decimal numeral, for every number that is an integer within the range of 64 bits. -/
theorem C88_numeral (o : Obj) (n : Int) (h : fixnum o = some n) : ∃ s, numberToString o = some s ∧ Buf.numeral s = some n := by
  refine ⟨Reader.printInt n, ?_, numeral_print n⟩
  have hn : n.natAbs < 10 ^ 20 := by
    have hi : inInt64 n = true := by
      unfold fixnum at h
      split at h
      · simp only at h
        generalize (if signBit o then -(truncMag o : Int) else truncMag o) = v at h
        split at h
        · rename_i hi
          cases h
          exact hi
        · cases h
      · cases h
    simp only [inInt64, Bool.and_eq_true, decide_eq_true_eq] at hi
    omega
  have hl := dec_length 19 n.natAbs (by simpa using hn)
  have : (Reader.printInt n).length < 32 := by
    rw [Reader.printInt]
    split
    · simp only [List.length_cons]; omega
    · omega
  simp [numberToString, h, this]

/-- **C88**, text: numbers up to 2^53 have texts of their own -/
theorem C88_injective (a b : Int) (ha : a.natAbs ≤ 2 ^ 53) (hb : b.natAbs ≤ 2 ^ 53) : ∃ x y s t, makeNumber a = some x ∧ makeNumber b = some y ∧
    numberToString x = some s ∧ numberToString y = some t ∧ (s = t → a = b) := by
  obtain ⟨x, hx, fx, _⟩ := C02_storage_exact a ha
  obtain ⟨y, hy, fy, _⟩ := C02_storage_exact b hb
  obtain ⟨s, hs, ns⟩ := C88_numeral x a fx
  obtain ⟨t, ht, nt⟩ := C88_numeral y b fy
  refine ⟨x, y, s, t, hx, hy, hs, ht, fun h => ?_⟩
  subst h
  rw [ns] at nt
  exact Option.some.inj nt

/-- **C88**, text: the text of an integer of 32 bits, read, is the integer again. (Longer ones are read as other numbers: C18.) -/
theorem C88_read_back (o : Obj) (n : Int) (h : fixnum o = some n) (hp : Printable (.int n)) : ∃ s, numberToString o = some s ∧
    ∀ rest, Delimited rest → ∃ N, ∀ m, N ≤ m → Reader.sexpRead m (s ++ rest) = .ok (.int n) rest false := by
  obtain ⟨t, h1, h2⟩ := Reader.C18_print_read_partial (.int n) hp
  simp only [Reader.printObj, Option.some.injEq] at h1
  subst h1
  obtain ⟨s, h3, _⟩ := C88_numeral o n h
  have : s = Reader.printInt n := by
    simp only [numberToString, h, Option.bind_eq_bind, Option.bind_some] at h3
    split at h3 <;> simp at h3
    exact h3.symm
  subst this
  exact ⟨_, h3, h2⟩

example : ∃ o, makeNumber (-120) = some o ∧ numberToString o = some [45, 49, 50, 48] :=
  ⟨0xC05E000000000000#64, by decide +kernel⟩

/-- **C88**, remainders. `(mod a b)` is the remainder of the division that rounds towards zero: less than `b` in magnitude, with
the sign of `a` (or 0), and it differs from `a` by a multiple of `b`. Division by zero is not answered. -/
theorem C88_mod (x y : Obj) (a b : Int) (hx : fixnum x = some a) (hy : fixnum y = some b) (ha : a.natAbs ≤ 2 ^ 53) :
    (b = 0 → builtinMod x y = none) ∧
    (b ≠ 0 → ∃ o r, builtinMod x y = some o ∧ fixnum o = some r ∧ r.natAbs < b.natAbs ∧ (∃ q, a = b * q + r) ∧ (0 ≤ a → 0 ≤ r) ∧ (a ≤ 0 → r ≤ 0)) := by
  refine ⟨fun h => by simp [builtinMod, hx, hy, h], fun h => ?_⟩
  have hr : (a.tmod b).natAbs ≤ a.natAbs := by rw [Int.natAbs_tmod]; exact Nat.mod_le _ _
  obtain ⟨o, h1, h2, _⟩ := C02_storage_exact (a.tmod b) (by omega)
  have hq : (a.tdiv b).natAbs ≤ a.natAbs := by rw [Int.natAbs_tdiv]; exact Nat.div_le_self _ _
  have hi : int64 (a.tdiv b) = some (a.tdiv b) := by
    rw [int64, if_pos]
    simp only [inInt64, Bool.and_eq_true, decide_eq_true_eq]
    omega
  refine ⟨o, _, by simp [builtinMod, hx, hy, h, hi, h1], h2, ?_, ⟨a.tdiv b, ?_⟩, fun h0 => Int.tmod_nonneg _ h0, fun h0 => ?_⟩
  · rw [Int.natAbs_tmod]
    exact Nat.mod_lt _ (by omega)
  · have := Int.mul_tdiv_add_tmod a b
    omega
  · have := Int.tmod_nonneg (a := -a) b (by omega)
    rw [Int.neg_tmod] at this
    omega

/-- **C88**, random numbers: `(randN n)` for a positive `n` is one of the numbers from 0 to `n - 1`, and which one is decided by what `rand`
gives alone -/
theorem C88_random (o : Obj) (n : Int) (ho : fixnum o = some n) (hn : 0 < n) (val : Nat) (hv : val < 2 ^ 31) :
    ∃ p r, randN val o = some p ∧ fixnum p = some r ∧ 0 ≤ r ∧ r < n ∧ r = val % n := by
  have e : (val : Int).tmod n = (val : Int) % n := Int.tmod_eq_emod_of_nonneg (by omega)
  have h1 : 0 ≤ (val : Int) % n := Int.emod_nonneg _ (by omega)
  have h2 : (val : Int) % n < n := Int.emod_lt_of_pos _ hn
  have h3 : (val : Int) % n ≤ val := by
    rcases Int.lt_or_le (val : Int) n with h | h
    · rw [Int.emod_eq_of_lt (by omega) h]; exact Int.le_refl _
    · omega
  obtain ⟨p, g1, g2, _⟩ := C02_storage_exact ((val : Int) % n) (by omega)
  exact ⟨p, _, by simp [randN, ho, show n ≠ 0 by omega, e, g1], g2, h1, h2, rfl⟩

/-- the session above under `C87_buffers_partial`, from any memory -/
example (junk : Nat → Byte) : ∃ h b, run [] [(junk, .new 4), (junk, .str [97, 98, 99]), (junk, .copy 0 1 1 0 3), (junk, .copy 0 0 0 2 1)] = some h ∧
    h[0]? = some b ∧ bytesLength b = 4 ∧ bytesRef b.data 2 = some 98 := by
  obtain ⟨h, e, l, k⟩ := C87_buffers_partial (os := [(junk, .new 4), (junk, .str [97, 98, 99]), (junk, .copy 0 1 1 0 3), (junk, .copy 0 0 0 2 1)])
    (a := [[some 98, some 97, some 98, some 99], [some 97, some 98, some 99]]) rfl (by decide)
  obtain ⟨b, hb⟩ : ∃ b, h[0]? = some b := ⟨h[0]'(by rw [l]; decide), by simp⟩
  have := k 0 b _ hb rfl
  exact ⟨h, b, e, hb, this.1, (this.2.2 2 98 rfl).1⟩
example : stringToList [200] = [-56] := (C87_negative_bytes_wrong 200 (by decide)).1
example : fixnum 0xC05E000000000000#64 = some (-120) ∧ fixnum 0x401C000000000000#64 = some 7 := by decide +kernel
example : ∃ s, numberToString 0xC05E000000000000#64 = some s ∧ Buf.numeral s = some (-120) := C88_numeral _ _ (by decide +kernel)
example : ∃ o r, builtinMod 0xC05E000000000000#64 0x401C000000000000#64 = some o ∧ fixnum o = some r ∧ r.natAbs < 7 ∧ r ≤ 0 := by
  obtain ⟨o, r, e, f, g, _, _, k⟩ := (C88_mod 0xC05E000000000000#64 0x401C000000000000#64 (-120) 7 (by decide +kernel) (by decide +kernel) (by decide)).2 (by decide)
  exact ⟨o, r, e, f, g, k (by decide)⟩
example : ∃ p r, randN 1000 0x401C000000000000#64 = some p ∧ fixnum p = some r ∧ 0 ≤ r ∧ r < 7 ∧ r = 1000 % 7 :=
  C88_random _ 7 (by decide +kernel) (by decide) 1000 (by decide)

end Cora.Buffer
