import Verif.Lemmas.Str
/-
Property theorems C05 - C11 (byte strings).
-/
namespace Cora
open Spec

/-! ## C05: buffers -/

/-- What the buffer operations are supposed to do to the content. -/
def contentAfter (content : List UInt8) : List BufOp → List UInt8
  | [] => content
  | .append c :: ops => contentAfter (content ++ [c]) ops
  | .cat s :: ops => contentAfter (content ++ s) ops
  | .cpy s :: ops => contentAfter s ops
  | .shrink n :: ops => contentAfter (content.take (content.length - n)) ops
  | .reserve _ :: ops => contentAfter content ops

theorem runOps_inv (b : StrBuf) (hb : BufInv b) (ops : List ((Nat → Byte) × BufOp)) :
    ∃ b', runOps b ops = some b' ∧ BufInv b' ∧ b'.toStr = contentAfter b.toStr (ops.map Prod.snd) := by
  induction ops generalizing b with
  | nil => exact ⟨b, rfl, hb, rfl⟩
  | cons o ops ih =>
    obtain ⟨j, op⟩ := o
    cases op with
    | append c =>
      obtain ⟨b1, h1, h2, h3⟩ := strAppend_spec j hb c
      obtain ⟨b', i1, i2, i3⟩ := ih b1 h2
      exact ⟨b', by simp [runOps, BufOp.run, h1, i1], i2, by simp [contentAfter, i3, h3]⟩
    | cat s =>
      obtain ⟨b1, h1, h2, h3⟩ := strCat_spec j hb s
      obtain ⟨b', i1, i2, i3⟩ := ih b1 h2
      exact ⟨b', by simp [runOps, BufOp.run, h1, i1], i2, by simp [contentAfter, i3, h3]⟩
    | cpy s =>
      obtain ⟨b1, h1, h2, h3, _⟩ := strCpy_spec j hb s
      obtain ⟨b', i1, i2, i3⟩ := ih b1 h2
      exact ⟨b', by simp [runOps, BufOp.run, h1, i1], i2, by simp [contentAfter, i3, h3]⟩
    | shrink n =>
      obtain ⟨b1, h1, h2, h3⟩ := strShrink_spec hb n
      obtain ⟨b', i1, i2, i3⟩ := ih b1 h2
      exact ⟨b', by simp [runOps, BufOp.run, h1, i1], i2, by simp [contentAfter, i3, h3]⟩
    | reserve n =>
      obtain ⟨b1, h1, h2, h3, _⟩ := strBufReserve_spec j hb n
      obtain ⟨b', i1, i2, i3⟩ := ih b1 h2
      exact ⟨b', by simp [runOps, BufOp.run, h1, i1], i2, by simp [contentAfter, i3, h3]⟩

/-- C05. From a fresh buffer of any positive capacity, every sequence of operations succeeds (no write
leaves the allocation, whatever garbage `malloc` returns), the content is the specified one, and it is
followed by a NUL inside the allocation. -/
theorem C05_buffer_safe (junk : Nat → Byte) (cap : Nat) (hcap : 0 < cap) (ops : List ((Nat → Byte) × BufOp)) :
    ∃ b0 b, strNew junk cap = some b0 ∧ runOps b0 ops = some b ∧
      b.toStr = contentAfter [] (ops.map Prod.snd) ∧ b.len < b.cap ∧ b.mem[b.len]? = some 0 := by
  obtain ⟨b0, h1, h2, _, h3⟩ := strNew_spec junk hcap
  obtain ⟨b, i1, i2, i3⟩ := runOps_inv b0 h2 ops
  exact ⟨b0, b, h1, i1, by rw [i3, h3], i2.room, i2.nul⟩

/-- C05, starting from a block of memory (`fromBlk`, `strDup`). -/
theorem C05_buffer_safe_fromBlk (junk : Nat → Byte) (s : Bytes) (ops : List ((Nat → Byte) × BufOp)) :
    ∃ b0 b, fromBlk junk s = some b0 ∧ runOps b0 ops = some b ∧
      b.toStr = contentAfter s (ops.map Prod.snd) ∧ b.len < b.cap ∧ b.mem[b.len]? = some 0 := by
  obtain ⟨b0, h1, h2, h3⟩ := fromBlk_spec junk s
  obtain ⟨b, i1, i2, i3⟩ := runOps_inv b0 h2 ops
  exact ⟨b0, b, h1, i1, by rw [i3, h3], i2.room, i2.nul⟩

example : (do runOps (← strNew (fun _ => 7) 1) [(fun _ => 9, .append 65), (fun _ => 9, .cat [66, 67]), (fun _ => 9, .shrink 1)])
    = some ⟨[65, 66, 0, 0], 2⟩ := by decide

/-! ## C06: comparison -/

/-- C06. `strCmp` decides the lexicographic order on (signed) bytes: negative, zero or positive exactly
as the first string is below, equal to or above the second. -/
theorem C06_compare_is_lex (a b : Bytes) (ha : a.length < 2 ^ 31) (hb : b.length < 2 ^ 31) :
    (strCmp a b < 0 ↔ LexLt a b) ∧ (strCmp a b = 0 ↔ a = b) ∧ (0 < strCmp a b ↔ LexLt b a) :=
  strCmp_spec a b ha hb

/-- C06, the order laws: sign-antisymmetry, transitivity, and zero only for equal strings. -/
theorem C06_compare_total_order (a b c : Bytes) (ha : a.length < 2 ^ 31) (hb : b.length < 2 ^ 31) (hc : c.length < 2 ^ 31) :
    (strCmp a b < 0 ↔ 0 < strCmp b a) ∧ (strCmp a b ≤ 0 → strCmp b c ≤ 0 → strCmp a c ≤ 0) ∧
    (strCmp a b = 0 ↔ a = b) ∧ strCmp a a = 0 := by
  obtain ⟨ab1, ab2, ab3⟩ := strCmp_spec a b ha hb
  obtain ⟨ba1, ba2, ba3⟩ := strCmp_spec b a hb ha
  obtain ⟨bc1, bc2, bc3⟩ := strCmp_spec b c hb hc
  obtain ⟨ac1, ac2, ac3⟩ := strCmp_spec a c ha hc
  refine ⟨by rw [ab1, ← ba3], ?_, ab2, (strCmp_spec a a ha ha).2.1.mpr rfl⟩
  intro h1 h2
  have h1' : LexLt a b ∨ a = b := by
    rcases Int.lt_or_eq_of_le h1 with h | h
    · exact Or.inl (ab1.mp h)
    · exact Or.inr (ab2.mp h)
  have h2' : LexLt b c ∨ b = c := by
    rcases Int.lt_or_eq_of_le h2 with h | h
    · exact Or.inl (bc1.mp h)
    · exact Or.inr (bc2.mp h)
  rcases h1' with h1 | h1
  · rcases h2' with h2 | h2
    · exact Int.le_of_lt (ac1.mpr (LexLt_trans h1 h2))
    · subst h2; exact Int.le_of_lt (ac1.mpr h1)
  · subst h1
    rcases h2' with h2 | h2
    · exact Int.le_of_lt (ac1.mpr h2)
    · exact Int.le_of_eq (ac2.mpr h2)

example : strCmp [97, 98] [97, 99] = -1 ∧ strCmp [97] [97, 98, 99] = -2 ∧ LexLt [97, 98] [97, 99] :=
  ⟨by decide, by decide, .tail (.head (by decide))⟩

/-! ## C07: search -/

/-- C07 (a). `strStr` returns the first occurrence, and a negative number exactly when there is none. -/
theorem C07_strStr_first (s p : Bytes) :
    (∀ i : Nat, strStr s p = i ↔ OccursAt s p i ∧ ∀ j, j < i → ¬ OccursAt s p j) ∧
    (strStr s p < 0 ↔ ¬ Occurs s p) := by
  rcases strStr_spec s p with ⟨i, h1, h2, h3⟩ | ⟨h1, h2⟩
  · refine ⟨fun k => ⟨fun hk => ?_, fun ⟨hk1, hk2⟩ => ?_⟩, ⟨fun h => by omega, fun h => absurd ⟨i, h2⟩ h⟩⟩
    · have : k = i := by omega
      subst this; exact ⟨h2, h3⟩
    · rcases Nat.lt_trichotomy i k with h | h | h
      · exact absurd h2 (hk2 i h)
      · subst h; exact h1
      · exact absurd hk1 (h3 k h)
  · refine ⟨fun k => ⟨fun hk => by omega, fun ⟨hk1, _⟩ => absurd hk1 (h2 k)⟩, ⟨fun _ => fun ⟨i, hi⟩ => h2 i hi, fun _ => by omega⟩⟩

/-- C07 (b). `string-contain?` is the substring relation. -/
theorem C07_contain (s p : Bytes) : stringContain s p = true ↔ Occurs s p := by
  have := (C07_strStr_first s p).2
  unfold stringContain
  by_cases h : strStr s p < 0
  · simp [h, this.mp h]
  · have h' : Occurs s p := Classical.byContradiction (fun hn => h (this.mpr hn))
    simp [h, h']

theorem hasPrefixLoop_spec (s p : Bytes) (hle : p.length ≤ s.length) (i : Nat) (hi : i ≤ p.length)
    (hpre : ∀ j, j < i → s[j]? = p[j]?) :
    (hasPrefixLoop s p i = some true ∧ p <+: s) ∨ (hasPrefixLoop s p i = some false ∧ ¬ p <+: s) := by
  fun_induction hasPrefixLoop s p i with
  | case1 i hlt hnone =>
    rw [List.getElem?_eq_none_iff] at hnone; omega
  | case2 i hlt c hc hne =>
    right; refine ⟨rfl, ?_⟩
    rintro ⟨t, rfl⟩
    rw [List.getElem?_append_left hlt] at hc
    simp [hlt] at hc
    exact hne hc
  | case3 i hlt c hc heq ih =>
    apply ih (by omega)
    intro j hj
    by_cases h' : j < i
    · exact hpre j h'
    · have : j = i := by omega
      subst this
      simp only [ne_eq, Decidable.not_not] at heq
      rw [hc]; simp [hlt, heq]
  | case4 i hge =>
    left; refine ⟨rfl, ?_⟩
    have := (occursAt_iff s p 0).mpr ⟨by omega, fun j hj => by rw [Nat.zero_add]; exact hpre j (by omega)⟩
    obtain ⟨a, b, h1, h2⟩ := this
    have : a = [] := List.length_eq_zero_iff.mp h2
    subst this
    exact ⟨b, by simp [h1]⟩

/-- C07 (c). `has-prefix?` is the prefix relation and reads nothing outside the strings. -/
theorem C07_hasPrefix (s p : Bytes) : ∃ r, stringHasPrefix s p = some r ∧ (r = true ↔ p <+: s) := by
  unfold stringHasPrefix
  by_cases h : p.length > s.length
  · rw [if_pos h]
    refine ⟨false, rfl, ⟨by simp, ?_⟩⟩
    rintro ⟨t, rfl⟩
    simp at h; omega
  · rw [if_neg h]
    rcases hasPrefixLoop_spec s p (by omega) 0 (by omega) (by omega) with ⟨h1, h2⟩ | ⟨h1, h2⟩
    · exact ⟨true, h1, by simp [h2]⟩
    · exact ⟨false, h1, by simp [h2]⟩

theorem strChrLoop_spec (s : Bytes) (c : Byte) (i : Nat) (hpre : ∀ j, j < i → s[j]? ≠ some c) :
    (∃ k : Nat, strChrLoop s c i = k ∧ s[k]? = some c ∧ ∀ j, j < k → s[j]? ≠ some c) ∨
    (strChrLoop s c i = -1 ∧ c ∉ s) := by
  fun_induction strChrLoop s c i with
  | case1 i hlt heq => left; exact ⟨i, rfl, by simp [hlt, heq], hpre⟩
  | case2 i hlt hne ih =>
    apply ih
    intro j hj
    by_cases h' : j < i
    · exact hpre j h'
    · have : j = i := by omega
      subst this; simp [hlt, hne]
  | case3 i hge =>
    right; refine ⟨rfl, ?_⟩
    intro hm
    obtain ⟨j, hj⟩ := List.mem_iff_getElem?.mp hm
    have : j < s.length := (List.getElem?_eq_some_iff.mp hj).1
    exact hpre j (by omega) hj

theorem strRchrLoop_spec (s : Bytes) (c : Byte) (p : Nat) (hpost : ∀ j, p ≤ j → s[j]? ≠ some c) :
    (∃ k : Nat, strRchrLoop s c p = k ∧ s[k]? = some c ∧ ∀ j, k < j → s[j]? ≠ some c) ∨
    (strRchrLoop s c p = -1 ∧ c ∉ s) := by
  induction p with
  | zero =>
    right; refine ⟨rfl, ?_⟩
    intro hm
    obtain ⟨j, hj⟩ := List.mem_iff_getElem?.mp hm
    exact hpost j (by omega) hj
  | succ p ih =>
    unfold strRchrLoop
    by_cases h : s[p]? = some c
    · rw [if_pos h]; left; exact ⟨p, rfl, h, fun j hj => hpost j (by omega)⟩
    · rw [if_neg h]
      apply ih
      intro j hj
      by_cases h' : j = p
      · subst h'; exact h
      · exact hpost j (by omega)

/-- C07 (d). `strChr` and `strRchr` report the first and the last position of a byte, and -1 exactly
when it does not occur. -/
theorem C07_strChr_strRchr (s : Bytes) (c : Byte) :
    ((∃ k : Nat, strChr s c = k ∧ s[k]? = some c ∧ ∀ j, j < k → s[j]? ≠ some c) ∨ (strChr s c = -1 ∧ c ∉ s)) ∧
    ((∃ k : Nat, strRchr s c = k ∧ s[k]? = some c ∧ ∀ j, k < j → s[j]? ≠ some c) ∨ (strRchr s c = -1 ∧ c ∉ s)) := by
  refine ⟨strChrLoop_spec s c 0 (by omega), strRchrLoop_spec s c s.length ?_⟩
  intro j hj
  rw [List.getElem?_eq_none hj]; simp

example : strStr [97, 97, 98, 97, 98] [97, 98] = 1 ∧ OccursAt [97, 97, 98, 97, 98] [97, 98] 1 ∧
    stringHasPrefix [97, 98] [97] = some true ∧ strRchr [47, 97, 47, 98] 47 = 2 := by
  refine ⟨by decide +kernel, ⟨[97], [97, 98], rfl, rfl⟩, by decide +kernel, by decide +kernel⟩

/-! ## C08: slicing -/

/-- C08 (a). `string-slice` with 32-bit indices: if the resolved indices satisfy `0 ≤ i ≤ j ≤ len` the
bytes `i..j-1` are returned, otherwise the empty string; no byte outside the string is read. -/
theorem C08_slice (s : Bytes) (i j : Int) (hs : s.length < 2 ^ 31)
    (hi : -(2:Int) ^ 31 ≤ i ∧ i < 2 ^ 31) (hj : -(2:Int) ^ 31 ≤ j ∧ j < 2 ^ 31) :
    stringSlice s i j = some
      (if 0 ≤ resolve s.length i ∧ resolve s.length i ≤ resolve s.length j ∧ resolve s.length j ≤ s.length
       then (s.drop (resolve s.length i).toNat).take ((resolve s.length j).toNat - (resolve s.length i).toNat)
       else []) := by
  have e1 : toInt32 i = i := toInt32_id hi.1 hi.2
  have e2 : toInt32 j = j := toInt32_id hj.1 hj.2
  have r1 : (if i < 0 then (s.length : Int) + i else i) = resolve s.length i := by
    unfold resolve; split <;> omega
  have r2 : (if j < 0 then (s.length : Int) + j else j) = resolve s.length j := by
    unfold resolve; split <;> omega
  unfold stringSlice
  simp only [e1, e2, r1, r2]
  generalize resolve s.length i = a
  generalize resolve s.length j = b
  by_cases h : 0 ≤ a ∧ a ≤ b ∧ b ≤ s.length
  · rw [if_neg (by omega), if_pos h]
    have : a = (a.toNat : Int) := by omega
    have hb : b - a = ((b.toNat - a.toNat : Nat) : Int) := by omega
    rw [hb]
    conv => lhs; rw [this]
    rw [readRange_nat s a.toNat _ (by omega), Int.toNat_natCast]
  · rw [if_pos (by omega), if_neg h]

/-- C08 (b). For every pair of integers whatsoever (including those that wrap around when converted to
`int`) no byte outside the string is read. -/
theorem C08_slice_never_out_of_bounds (s : Bytes) (i j : Int) : (stringSlice s i j).isSome := by
  unfold stringSlice
  simp only
  generalize (if toInt32 i < 0 then (s.length : Int) + toInt32 i else toInt32 i) = a
  generalize (if toInt32 j < 0 then (s.length : Int) + toInt32 j else toInt32 j) = b
  by_cases h : a < 0 ∨ b > s.length ∨ b < a
  · simp [h]
  · rw [if_neg h]
    unfold readRange
    rw [if_pos (by omega)]; rfl

/-- C08 (c). The internal `strSub`: same statement; an index equal to the length is allowed. -/
theorem C08_strSub (s : Bytes) (i j : Int) :
    strSub s i j = some
      (if 0 ≤ resolve s.length i ∧ resolve s.length i ≤ resolve s.length j ∧ resolve s.length j ≤ s.length
       then (s.drop (resolve s.length i).toNat).take ((resolve s.length j).toNat - (resolve s.length i).toNat)
       else []) := by
  have key : ∀ k, ptrByIdx s.length k = if 0 ≤ resolve s.length k ∧ resolve s.length k ≤ s.length then some (resolve s.length k) else none := by
    intro k
    unfold ptrByIdx resolve
    by_cases hk : k < 0
    · rw [if_neg (by omega)]
      simp only [hk, if_true]
      by_cases h : k + s.length ≥ 0
      · rw [if_pos h, if_pos (by omega)]; congr 1; omega
      · rw [if_neg h, if_neg (by omega)]
    · rw [if_pos (by omega)]
      simp only [hk, if_false]
      by_cases h : k ≤ s.length
      · rw [if_pos h, if_pos (by omega)]
      · rw [if_neg h, if_neg (by omega)]
  unfold strSub
  rw [key i, key j]
  generalize resolve s.length i = a
  generalize resolve s.length j = b
  by_cases ha : 0 ≤ a ∧ a ≤ s.length
  · rw [if_pos ha]
    by_cases hb : 0 ≤ b ∧ b ≤ s.length
    · rw [if_pos hb]
      simp only
      by_cases h : a ≥ b
      · rw [if_pos h]
        by_cases h' : 0 ≤ a ∧ a ≤ b ∧ b ≤ s.length
        · rw [if_pos h']
          have : b.toNat - a.toNat = 0 := by omega
          rw [this]; simp
        · rw [if_neg h']
      · rw [if_neg h, if_pos (by omega)]
        have e1 : a = (a.toNat : Int) := by omega
        have e2 : b - a = ((b.toNat - a.toNat : Nat) : Int) := by omega
        rw [e2]
        conv => lhs; rw [e1]
        rw [readRange_nat s a.toNat _ (by omega), Int.toNat_natCast]
    · rw [if_neg hb, if_neg (by omega)]
  · have : ¬ (0 ≤ a ∧ a ≤ b ∧ b ≤ s.length) := by omega
    simp only [ha, this, if_false]

example : stringSlice [104, 101, 108, 108, 111] 1 (-1) = some [101, 108, 108] ∧ stringSlice [104] 0 5 = some [] := by decide

/-- Indices outside 32 bits wrap around: `(string-slice s 4294967296 1)` answers as for index 0. -/
theorem C08_slice_wraps : stringSlice [104, 105] 4294967296 1 = some [104] := by decide

/-- `string-index` has no bounds check: an index equal to the length reads outside the string. -/
theorem C08_string_index_unchecked : stringIndex [104, 105] 2 = none ∧ stringIndex [104, 105] (-1) = none := by decide

/-- `byte-ref` is checked: it answers exactly on `0 ≤ i < len`. -/
theorem C08_byteRef (s : Bytes) (i : Int) :
    (0 ≤ i ∧ i < s.length → ∃ c, s[i.toNat]? = some c ∧ bytesRef s i = some (signedByte c)) ∧
    (¬ (0 ≤ i ∧ i < s.length) → bytesRef s i = none) := by
  constructor
  · intro h
    have hlt : i.toNat < s.length := by omega
    refine ⟨s[i.toNat], by simp [hlt], ?_⟩
    unfold bytesRef
    rw [if_pos h]
    simp [hlt, charVal_eq_signedByte]
  · intro h; unfold bytesRef; rw [if_neg h]

/-! ## C09: split -/

theorem splitLoop_spec (sep : Bytes) (hsep : sep ≠ []) (fuel : Nat) (s : Bytes) (hf : s.length < fuel) :
    ∃ ps, stringSplitLoop sep fuel s = some ps ∧ ps ≠ [] ∧ join sep ps = s ∧
      (∀ q, ps.getLast? = some q → Occurs q sep → OccursAt q sep 0) ∧
      (∀ q ∈ ps.dropLast, q ≠ [] ∧ ¬ Occurs q sep) := by
  induction fuel generalizing s with
  | zero => omega
  | succ fuel ih =>
    have hsl : 0 < sep.length := List.length_pos_iff.mpr hsep
    unfold stringSplitLoop
    simp only
    rcases strStr_spec s sep with ⟨i, h1, ⟨a, b, hab, hi⟩, h3⟩ | ⟨h1, h2⟩
    · by_cases hpos : strStr s sep > 0
      · rw [if_pos hpos]
        obtain ⟨hA, hB⟩ := strSub_split hab
        rw [h1, ← hi]
        rw [hA, hB]
        have hlen : s.length = a.length + sep.length + b.length := by rw [hab]; simp; omega
        obtain ⟨ps, p1, p2, p3, p4, p5⟩ := ih b (by omega)
        have hane : a ≠ [] := by
          intro h; rw [h] at hi; simp at hi; omega
        have haocc : ¬ Occurs a sep := by
          rintro ⟨k, c, d, hk, hkl⟩
          have : OccursAt s sep k := ⟨c, d ++ sep ++ b, by rw [hab, hk]; simp [List.append_assoc], hkl⟩
          apply h3 k _ this
          have : a.length = c.length + sep.length + d.length := by rw [hk]; simp; omega
          omega
        refine ⟨a :: ps, by simp [p1], by simp, ?_, ?_, ?_⟩
        · cases ps with
          | nil => exact absurd rfl p2
          | cons q qs => rw [join, p3, hab]
        · intro q hq k
          cases ps with
          | nil => exact absurd rfl p2
          | cons r rs => rw [List.getLast?_cons_cons] at hq; exact p4 q hq k
        · intro q hq
          cases ps with
          | nil => exact absurd rfl p2
          | cons r rs =>
            rw [List.dropLast_cons_cons] at hq
            rcases List.mem_cons.mp hq with rfl | hq
            · exact ⟨hane, haocc⟩
            · exact p5 q hq
      · rw [if_neg hpos]
        have hi0 : i = 0 := by omega
        refine ⟨[s], rfl, by simp, rfl, ?_, by simp⟩
        intro q hq _
        simp at hq; subst hq
        exact ⟨a, b, hab, by omega⟩
    · rw [if_neg (by omega)]
      refine ⟨[s], rfl, by simp, rfl, ?_, by simp⟩
      rintro q hq ⟨k, hk⟩
      simp at hq; subst hq
      exact absurd hk (h2 k)

theorem join_last (sep : Bytes) (ps : List Bytes) (hne : ps ≠ []) (q : Bytes) (hq : ps.getLast? = some q) :
    ps = [q] ∨ ∃ x, join sep ps = x ++ sep ++ q := by
  induction ps with
  | nil => exact absurd rfl hne
  | cons p ps ih =>
    cases ps with
    | nil => left; simp at hq; rw [hq]
    | cons r rs =>
      right
      rw [List.getLast?_cons_cons] at hq
      rcases ih (by simp) hq with h | ⟨x, hx⟩
      · rw [h]; exact ⟨p, by simp [join]⟩
      · exact ⟨p ++ sep ++ x, by rw [join, hx]; simp [List.append_assoc]⟩

/-- C09, proved part. The loop terminates without reading outside, joining the pieces gives back the
string, and every piece but the last is free of the separator.  If the separator is neither at the
very start of the string nor doubled anywhere, no piece at all contains it. -/
theorem C09_split_partial (s sep : Bytes) (hsep : sep ≠ []) :
    ∃ ps, stringSplit s sep = some ps ∧ join sep ps = s ∧ (∀ q ∈ ps.dropLast, ¬ Occurs q sep) ∧
      (¬ OccursAt s sep 0 → ¬ Occurs s (sep ++ sep) → ∀ q ∈ ps, ¬ Occurs q sep) := by
  obtain ⟨ps, p1, p2, p3, p4, p5⟩ := splitLoop_spec sep hsep (s.length + 1) s (by omega)
  refine ⟨ps, p1, p3, fun q hq => (p5 q hq).2, ?_⟩
  intro h0 hdd q hq hocc
  have hlast : ∃ l, ps.getLast? = some l := by
    cases h : ps.getLast? with
    | none => rw [List.getLast?_eq_none_iff] at h; exact absurd h p2
    | some l => exact ⟨l, rfl⟩
  obtain ⟨l, hl⟩ := hlast
  have hql : q = l := by
    have hsplit : ps = ps.dropLast ++ [l] := by
      rw [List.getLast?_eq_some_iff] at hl
      obtain ⟨ys, rfl⟩ := hl
      simp
    rw [hsplit] at hq
    rcases List.mem_append.mp hq with h | h
    · exact absurd hocc (p5 q h).2
    · simpa using h
  subst hql
  obtain ⟨a, b, hab, ha⟩ := p4 q hl hocc
  have ha' : a = [] := List.length_eq_zero_iff.mp ha
  subst ha'
  rcases join_last sep ps p2 q hl with h | ⟨x, hx⟩
  · rw [h] at p3
    simp [join] at p3
    subst p3
    exact h0 ⟨[], b, hab, rfl⟩
  · rw [p3] at hx
    apply hdd
    refine ⟨x.length, x, b, ?_, rfl⟩
    rw [hx, hab]; simp [List.append_assoc]

/-- C09 in full is false of the code: a separator at the start of the remaining text stops the loop, so
splitting `"a,,b"` at `","` gives the piece `",b"`. -/
theorem C09_split_piece_contains_separator :
    stringSplit [97, 44, 44, 98] [44] = some [[97], [44, 98]] ∧ Occurs [44, 98] [44] := by
  refine ⟨by decide +kernel, 0, [], [98], rfl, rfl⟩

example : stringSplit [97, 44, 98, 44, 99] [44] = some [[97], [98], [99]] ∧
    ¬ OccursAt [97, 44, 98, 44, 99] [44] 0 := by
  refine ⟨by decide +kernel, ?_⟩
  rw [occursAt_iff]
  intro h
  have := h.2 0 (by decide)
  simp at this

/-! ## C10: replace -/

/-- C10. `string-replace` replaces the first occurrence and only that one; without an occurrence the
string is returned unchanged. It never traps. -/
theorem C10_replace (junk : Nat → Byte) (s p r : Bytes) :
    (∀ a b, s = a ++ p ++ b → (∀ j, j < a.length → ¬ OccursAt s p j) → stringReplace junk s p r = some (a ++ r ++ b)) ∧
    (¬ Occurs s p → stringReplace junk s p r = some s) := by
  constructor
  · intro a b hab hfirst
    have hpos : strStr s p = (a.length : Nat) := ((C07_strStr_first s p).1 a.length).mpr ⟨⟨a, b, hab, rfl⟩, hfirst⟩
    obtain ⟨hA, hB⟩ := strSub_split hab
    obtain ⟨b0, n1, n2, _, n3⟩ := strNew_spec junk (cap := s.length + r.length - p.length + 1) (by omega)
    obtain ⟨b1, c1, c2, c3, _⟩ := strCpy_spec junk n2 a
    obtain ⟨b2, d1, d2, d3⟩ := strCat_spec junk c2 r
    obtain ⟨b3, e1, e2, e3⟩ := strCat_spec junk d2 b
    unfold stringReplace
    simp only [hpos]
    rw [if_neg (by omega), hA, hB]
    simp [n1, c1, d1, e1, e3, d3, c3]
  · intro h
    have := (C07_strStr_first s p).2.mpr h
    unfold stringReplace
    simp [this]

example : stringReplace (fun _ => 0) [97, 98, 97, 98] [98] [120, 121] = some [97, 120, 121, 97, 98] := by decide +kernel

/-! ## C11: append -/

/-- C11, proved part: unless both strings are empty, `string-append` concatenates and never traps. -/
theorem C11_append_partial (junk : Nat → Byte) (x y : Bytes) (h : x ≠ [] ∨ y ≠ []) :
    builtinStringAppend junk x y = some (x ++ y) := by
  have hpos : 0 < x.length + y.length := by
    rcases h with h | h
    · have := List.length_pos_iff.mpr h; omega
    · have := List.length_pos_iff.mpr h; omega
  obtain ⟨b0, n1, n2, _, n3⟩ := strNew_spec junk hpos
  obtain ⟨b1, c1, c2, c3, _⟩ := strCpy_spec junk n2 x
  obtain ⟨b2, d1, d2, d3⟩ := strCat_spec junk c2 y
  unfold builtinStringAppend
  simp [n1, c1, d1, d3, c3]

/-- C11 in full is false of the code: `(string-append "" "")` aborts. -/
theorem C11_append_empty_traps (junk : Nat → Byte) : builtinStringAppend junk [] [] = none := by
  simp [builtinStringAppend, strNew]

example : builtinStringAppend (fun _ => 0) [97] [] = some [97] := by decide

end Cora
