import Verif.Model.Ident
import Verif.Spec.CText
import Verif.Lemmas.Str
/-
C38 (C identifiers), C39 (string constants in compiled code).
-/
open Spec
namespace Cora

/-! ## C38 -/

theorem decDigits_two {n : Nat} (h1 : 10 ≤ n) (h2 : n < 100) :
    Reader.decDigits n = [UInt8.ofNat (48 + n / 10), UInt8.ofNat (48 + n % 10)] := by
  rw [Reader.decDigits, if_neg (by omega), Reader.decDigits, if_pos (by omega)]
  rfl

theorem decDigits_three {n : Nat} (h1 : 100 ≤ n) (h2 : n < 128) :
    Reader.decDigits n = [49, UInt8.ofNat (48 + n / 10 % 10), UInt8.ofNat (48 + n % 10)] := by
  rw [Reader.decDigits, if_neg (by omega), Reader.decDigits, if_neg (by omega), Reader.decDigits,
    if_pos (by omega)]
  have : 48 + n / 10 / 10 = 49 := by omega
  rw [this]
  rfl

/-- printable ASCII without the blank -/
def Printing (c : Byte) : Prop := 33 ≤ c.toNat ∧ c.toNat ≤ 126

/-- how one printable character is written -/
theorem symChar_cases {c : Byte} (h : Printing c) :
    (symChar c = [c] ∧ CIdentChar c ∧ c ≠ 95) ∨ (symChar c = [95, 95] ∧ c = 95) ∨
    (c.toNat < 100 ∧ ¬ (48 ≤ c.toNat ∧ c.toNat ≤ 57) ∧ symChar c = [95, UInt8.ofNat (48 + c.toNat / 10), UInt8.ofNat (48 + c.toNat % 10)]) ∨
    (123 ≤ c.toNat ∧ symChar c = [95, 49, 50, UInt8.ofNat (48 + c.toNat % 10)]) := by
  unfold Printing at h
  unfold symChar
  by_cases h1 : (97 ≤ c.toNat ∧ c.toNat ≤ 122) ∨ (65 ≤ c.toNat ∧ c.toNat ≤ 90) ∨ (48 ≤ c.toNat ∧ c.toNat ≤ 57)
  · rw [if_pos h1]
    refine .inl ⟨rfl, ?_, ?_⟩
    · unfold CIdentChar; grind
    · rintro rfl
      revert h1; decide
  · rw [if_neg h1]
    by_cases h2 : c = 95
    · rw [if_pos h2]; exact .inr (.inl ⟨rfl, h2⟩)
    · rw [if_neg h2]
      unfold printChar
      rw [if_pos (by omega)]
      by_cases h3 : c.toNat < 100
      · rw [decDigits_two (by omega) h3]
        exact .inr (.inr (.inl ⟨h3, by grind, rfl⟩))
      · rw [decDigits_three (by omega) (by omega)]
        have : 48 + c.toNat / 10 % 10 = 50 := by omega
        rw [this]
        exact .inr (.inr (.inr ⟨by omega, rfl⟩))

theorem ofNat_inj {a b : Nat} (ha : a < 256) (hb : b < 256) (h : UInt8.ofNat a = UInt8.ofNat b) : a = b := by
  have := congrArg UInt8.toNat h
  simp only [UInt8.toNat_ofNat'] at this
  omega

/-- the encoding of characters is a prefix code -/
theorem symChar_prefix {a b : Byte} (ha : Printing a) (hb : Printing b) {x y : Bytes}
    (h : symChar a ++ x = symChar b ++ y) : a = b ∧ x = y := by
  have inj : a.toNat = b.toNat → a = b := UInt8.toNat_inj.mp
  have e49 : (49 : UInt8) = UInt8.ofNat 49 := rfl
  have e50 : (50 : UInt8) = UInt8.ofNat 50 := rfl
  have e95 : (95 : UInt8) = UInt8.ofNat 95 := rfl
  unfold Printing at ha hb
  rcases symChar_cases ha with ⟨a1, a2, a3⟩ | ⟨a1, a2⟩ | ⟨a1, a0, a2⟩ | ⟨a1, a2⟩ <;>
  rcases symChar_cases hb with ⟨b1, b2, b3⟩ | ⟨b1, b2⟩ | ⟨b1, b0, b2⟩ | ⟨b1, b2⟩
  · rw [a1, b1] at h; simp at h; exact h
  · rw [a1, b1] at h; simp at h; exact absurd h.1 a3
  · rw [a1, b2] at h; simp at h; exact absurd h.1 a3
  · rw [a1, b2] at h; simp at h; exact absurd h.1 a3
  · rw [a1, b1] at h; simp at h; exact absurd h.1.symm b3
  · rw [a1, b1] at h; simp at h; exact ⟨by rw [a2, b2], h⟩
  · rw [a1, b2] at h; simp only [List.cons_append, List.nil_append, List.cons.injEq] at h
    obtain ⟨-, h, -⟩ := h
    rw [e95] at h
    have := ofNat_inj (by omega) (by omega) h
    omega
  · rw [a1, b2] at h; simp at h
  · rw [a2, b1] at h; simp at h; exact absurd h.1.symm b3
  · rw [a2, b1] at h; simp only [List.cons_append, List.nil_append, List.cons.injEq] at h
    obtain ⟨-, h, -⟩ := h
    rw [e95] at h
    have := ofNat_inj (by omega) (by omega) h
    omega
  · rw [a2, b2] at h; simp only [List.cons_append, List.nil_append, List.cons.injEq] at h
    obtain ⟨-, h1, h2, h3⟩ := h
    have := ofNat_inj (by omega) (by omega) h1
    have := ofNat_inj (by omega) (by omega) h2
    exact ⟨inj (by omega), h3⟩
  · rw [a2, b2] at h; simp only [List.cons_append, List.nil_append, List.cons.injEq] at h
    obtain ⟨-, h1, h2, h3⟩ := h
    rw [e49] at h1
    rw [e50] at h2
    have := ofNat_inj (by omega) (by omega) h1
    have := ofNat_inj (by omega) (by omega) h2
    omega
  · rw [a2, b1] at h; simp at h; exact absurd h.1.symm b3
  · rw [a2, b1] at h; simp at h
  · rw [a2, b2] at h; simp only [List.cons_append, List.nil_append, List.cons.injEq] at h
    obtain ⟨-, h1, h2, h3⟩ := h
    rw [e49] at h1
    rw [e50] at h2
    have := ofNat_inj (by omega) (by omega) h1
    have := ofNat_inj (by omega) (by omega) h2
    omega
  · rw [a2, b2] at h; simp only [List.cons_append, List.nil_append, List.cons.injEq] at h
    obtain ⟨-, -, -, h1, h2⟩ := h
    have := ofNat_inj (by omega) (by omega) h1
    exact ⟨inj (by omega), h2⟩

theorem flatMap_symChar_inj {s t : Bytes} (hs : ∀ c ∈ s, Printing c) (ht : ∀ c ∈ t, Printing c)
    (h : s.flatMap symChar = t.flatMap symChar) : s = t := by
  have ne : ∀ c, symChar c ≠ [] := by intro c; unfold symChar; repeat (split; simp); simp
  induction s generalizing t with
  | nil =>
    cases t with
    | nil => rfl
    | cons b t => simp [List.flatMap_cons] at h; exact absurd h.1 (ne b)
  | cons a s ih =>
    cases t with
    | nil => simp [List.flatMap_cons] at h; exact absurd h.1 (ne a)
    | cons b t =>
      rw [List.flatMap_cons, List.flatMap_cons] at h
      obtain ⟨h1, h2⟩ := symChar_prefix (hs a (by simp)) (ht b (by simp)) h
      rw [h1, ih (fun c hc => hs c (by simp [hc])) (fun c hc => ht c (by simp [hc])) h2]

theorem upToNul_self {s : Bytes} (h : (0 : Byte) ∉ s) : upToNul s = s := by
  unfold upToNul
  induction s with
  | nil => rfl
  | cons a s ih =>
    simp only [List.mem_cons, not_or] at h
    rw [List.takeWhile_cons_of_pos (by simpa using Ne.symm h.1), ih h.2]

/-- the name starts with a digit -/
def StartsDigit (s : Bytes) : Prop := ∃ c r, s = c :: r ∧ 48 ≤ c.toNat ∧ c.toNat ≤ 57

theorem no_nul {s : Bytes} (h : ∀ c ∈ s, Printing c) : (0 : Byte) ∉ s := by
  intro hm
  have := (h 0 hm).1
  revert this; decide

/-- what is written for a printable name -/
theorem generateSym_eq {s : Bytes} (h : ∀ c ∈ s, Printing c) (hl : s.length < 255) :
    (StartsDigit s → generateSym s = some (118 :: s.flatMap symChar)) ∧
    (¬ StartsDigit s → generateSym s = some (s.flatMap symChar)) := by
  unfold generateSym
  rw [if_pos (by omega), upToNul_self (no_nul h)]
  constructor
  · rintro ⟨c, r, rfl, h1, h2⟩
    simp [h1, h2]
  · intro hn
    cases s with
    | nil => rfl
    | cons c r =>
      have : ¬ (48 ≤ c.toNat ∧ c.toNat ≤ 57) := fun hh => hn ⟨c, r, rfl, hh⟩
      simp [this]

/-- C38, the part that holds: two different names made of printable ASCII characters, of at most 254 bytes,
that both start with a digit or both do not, are written differently. Missing: the collision, the reserved
words and the non-ASCII names below. -/
theorem C38_injective_partial {s t : Bytes} (hs : ∀ c ∈ s, Printing c) (ht : ∀ c ∈ t, Printing c)
    (hls : s.length < 255) (hlt : t.length < 255) (hd : StartsDigit s ↔ StartsDigit t) (hne : s ≠ t) :
    ∃ a b, generateSym s = some a ∧ generateSym t = some b ∧ a ≠ b := by
  obtain ⟨s1, s2⟩ := generateSym_eq hs hls
  obtain ⟨t1, t2⟩ := generateSym_eq ht hlt
  by_cases h : StartsDigit s
  · refine ⟨_, _, s1 h, t1 (hd.mp h), fun e => hne (flatMap_symChar_inj hs ht ?_)⟩
    simpa using e
  · exact ⟨_, _, s2 h, t2 (fun h' => h (hd.mpr h')), fun e => hne (flatMap_symChar_inj hs ht e)⟩

/-- C38, the part that holds: a non-empty name of printable ASCII characters is written as an identifier. -/
theorem C38_identifier_partial {s : Bytes} (hs : ∀ c ∈ s, Printing c) (hne : s ≠ []) (hl : s.length < 255) :
    ∃ a, generateSym s = some a ∧ CIdent a := by
  have dig : ∀ n, n ≤ 9 → CIdentChar (UInt8.ofNat (48 + n)) := by
    intro n hn
    unfold CIdentChar
    have : (UInt8.ofNat (48 + n)).toNat = 48 + n := by rw [UInt8.toNat_ofNat']; omega
    rw [this]; omega
  have hchars : ∀ c, Printing c → ∀ d ∈ symChar c, CIdentChar d := by
    intro c hc d hd
    have := hc.2
    rcases symChar_cases hc with ⟨a1, a2, a3⟩ | ⟨a1, a2⟩ | ⟨a1, -, a2⟩ | ⟨a1, a2⟩
    · rw [a1] at hd; simp at hd; rw [hd]; exact a2
    · rw [a1] at hd; simp at hd; rw [hd]; unfold CIdentChar; simp
    · rw [a2] at hd
      simp only [List.mem_cons, List.not_mem_nil, or_false] at hd
      rcases hd with rfl | rfl | rfl
      · unfold CIdentChar; simp
      · exact dig (c.toNat / 10) (by omega)
      · exact dig (c.toNat % 10) (by omega)
    · rw [a2] at hd
      simp only [List.mem_cons, List.not_mem_nil, or_false] at hd
      rcases hd with rfl | rfl | rfl | rfl
      · unfold CIdentChar; simp
      · exact dig 1 (by omega)
      · exact dig 2 (by omega)
      · exact dig (c.toNat % 10) (by omega)
  have hall : ∀ d ∈ s.flatMap symChar, CIdentChar d := by
    intro d hd
    obtain ⟨c, hc, hd⟩ := List.mem_flatMap.mp hd
    exact hchars c (hs c hc) d hd
  obtain ⟨s1, s2⟩ := generateSym_eq hs hl
  by_cases h : StartsDigit s
  · refine ⟨_, s1 h, ?_, 118, _, rfl, by decide⟩
    intro d hd
    rcases List.mem_cons.mp hd with rfl | hd
    · unfold CIdentChar; decide
    · exact hall d hd
  · refine ⟨_, s2 h, hall, ?_⟩
    cases s with
    | nil => exact absurd rfl hne
    | cons c r =>
      have hc := hs c (by simp)
      have hnd : ¬ (48 ≤ c.toNat ∧ c.toNat ≤ 57) := fun hh => h ⟨c, r, rfl, hh⟩
      rcases symChar_cases hc with ⟨a1, a2, a3⟩ | ⟨a1, a2⟩ | ⟨a1, -, a2⟩ | ⟨a1, a2⟩
      · exact ⟨c, r.flatMap symChar, by rw [List.flatMap_cons, a1]; rfl, hnd⟩
      · exact ⟨95, _, by rw [List.flatMap_cons, a1]; rfl, by decide⟩
      · exact ⟨95, _, by rw [List.flatMap_cons, a2]; rfl, by decide⟩
      · exact ⟨95, _, by rw [List.flatMap_cons, a2]; rfl, by decide⟩

/-- C38 is false: the names `1x` and `v1x` are written the same. -/
theorem C38_digit_names_collide :
    generateSym [49, 120] = some [118, 49, 120] ∧ generateSym [118, 49, 120] = some [118, 49, 120] := by
  decide +kernel

/-- C38 is false: a name of letters and digits that does not start with a digit is written as it is, even if
it is reserved in C (`int`, `do`, ...) or is the name of a parameter of the generated functions (`R`, `co`,
`label`). -/
theorem C38_plain_names_unchanged {s : Bytes} (h : ∀ c ∈ s, CIdentChar c ∧ c ≠ 95) (hd : ¬ StartsDigit s)
    (hl : s.length < 255) : generateSym s = some s := by
  have hp : ∀ c ∈ s, Printing c := by
    intro c hc
    have := (h c hc).1
    unfold CIdentChar at this
    unfold Printing
    rcases this with h | h | h | h
    · omega
    · omega
    · omega
    · exact absurd h (h_ne c hc)
  rw [(generateSym_eq hp hl).2 hd]
  congr 1
  clear hp hd hl
  induction s with
  | nil => rfl
  | cons c r ih =>
    rw [List.flatMap_cons, ih (fun c hc => h c (by simp [hc]))]
    have hc := h c (by simp)
    have : symChar c = [c] := by
      unfold symChar
      unfold CIdentChar at hc
      rw [if_pos (by grind)]
    rw [this]; rfl
where h_ne (c : Byte) (hc : c ∈ s) : c ≠ 95 := (h c hc).2

/-- every reserved word is an instance -/
theorem C38_reserved_words_emitted : ∀ w ∈ cReserved, generateSym w = some w := by
  intro w hw
  refine C38_plain_names_unchanged ?_ ?_ ?_
  · revert w; unfold CIdentChar; decide
  · rintro ⟨c, r, rfl, h1, h2⟩
    unfold cReserved at hw
    simp at hw
    rcases hw with ⟨rfl, -⟩ | ⟨rfl, -⟩ | ⟨rfl, -⟩ | ⟨rfl, -⟩ | ⟨rfl, -⟩ <;> revert h1 h2 <;> decide
  · revert w; decide

/-- C38 is false: a byte above 127 is written with a minus sign, which is in no identifier. -/
theorem C38_non_ascii_invalid {c : Byte} (hc : 128 ≤ c.toNat) :
    ∃ a, generateSym [c] = some a ∧ ¬ CIdent a := by
  have h0 : c ≠ 0 := by rintro rfl; revert hc; decide
  have hn : upToNul [c] = [c] := upToNul_self (by simp [Ne.symm h0])
  have h95 : c ≠ 95 := by rintro rfl; revert hc; decide
  refine ⟨95 :: 45 :: Reader.decDigits (256 - c.toNat), ?_, ?_⟩
  · unfold generateSym
    simp only [List.length_singleton, hn]
    rw [if_pos (by omega)]
    have hd : ¬ (48 ≤ c.toNat ∧ c.toNat ≤ 57) := by omega
    simp only [hd, if_false, List.flatMap_cons, List.flatMap_nil, List.append_nil, List.nil_append]
    unfold symChar printChar
    rw [if_neg (by omega), if_neg h95, if_neg (by omega)]
  · intro h
    have := h.1 45 (by simp)
    revert this; unfold CIdentChar; decide

/-- `a-b` and `a_b` -/
example : ∃ a b, generateSym [97, 45, 98] = some a ∧ generateSym [97, 95, 98] = some b ∧ a ≠ b :=
  C38_injective_partial (by unfold Printing; decide) (by unfold Printing; decide) (by decide) (by decide)
    (by constructor <;> (rintro ⟨c, r, e, h1, h2⟩; cases e; revert h2; exact fun h => absurd h (by decide))) (by decide)

/-! ## C39 -/

/-- one character of the escaped text -/
def escChar (c : Byte) : Bytes :=
  if c = 34 then [92, 34] else if c = 10 then [92, 110] else if c = 9 then [92, 116] else [c]

theorem escapeStep_spec (j : Nat → Byte) {b : StrBuf} (hb : BufInv b) (c : Byte) :
    ∃ b', escapeStep j b c = some b' ∧ BufInv b' ∧ b'.toStr = b.toStr ++ escChar c := by
  have two : ∀ d, ∃ b', (do strAppend j (← strAppend j b 92) d) = some b' ∧ BufInv b' ∧
      b'.toStr = b.toStr ++ [92, d] := by
    intro d
    obtain ⟨b1, h1, i1, t1⟩ := strAppend_spec j hb 92
    obtain ⟨b2, h2, i2, t2⟩ := strAppend_spec j i1 d
    refine ⟨b2, ?_, i2, by rw [t2, t1]; simp⟩
    rw [h1]; exact h2
  unfold escapeStep escChar
  repeat' split
  · exact two 34
  · exact two 110
  · exact two 116
  · exact strAppend_spec j hb c

theorem escapeFold_spec (j : Nat → Byte) (s : Bytes) {b : StrBuf} (hb : BufInv b) :
    ∃ b', s.foldlM (escapeStep j) b = some b' ∧ BufInv b' ∧ b'.toStr = b.toStr ++ s.flatMap escChar := by
  induction s generalizing b with
  | nil => exact ⟨b, rfl, hb, by simp⟩
  | cons c s ih =>
    obtain ⟨b1, h1, i1, t1⟩ := escapeStep_spec j hb c
    obtain ⟨b2, h2, i2, t2⟩ := ih i1
    refine ⟨b2, ?_, i2, by rw [t2, t1]; simp⟩
    simp only [List.foldlM_cons, h1]
    exact h2

theorem escapeStr_eq (j : Nat → Byte) (s : Bytes) : escapeStr j s = some (s.flatMap escChar) := by
  unfold escapeStr
  cases s with
  | nil => rfl
  | cons c s =>
    rw [if_neg (by simp)]
    obtain ⟨b, h1, h2, -, h4⟩ := strNew_spec j (cap := (c :: s).length) (by simp)
    obtain ⟨b', g1, -, g3⟩ := escapeFold_spec j (c :: s) h2
    simp only [h1, Option.bind_eq_bind, Option.bind_some, g1]
    rw [g3, h4]
    simp

theorem esc_nul {s : Bytes} (h : (0 : Byte) ∉ s) : (0 : Byte) ∉ s.flatMap escChar := by
  intro hm
  obtain ⟨c, hc, hm⟩ := List.mem_flatMap.mp hm
  unfold escChar at hm
  repeat' split at hm
  · simp at hm
  · simp at hm
  · simp at hm
  · simp at hm; exact h (hm ▸ hc)

theorem constText_eq (j : Nat → Byte) {s : Bytes} (h : (0 : Byte) ∉ s) :
    constText j s = some (s.flatMap escChar) := by
  unfold constText generateStr
  rw [escapeStr_eq, Option.map_some, upToNul_self (esc_nul h)]

/-- a string without a backslash is written as a literal for it -/
theorem esc_literal {s : Bytes} (h : (92 : Byte) ∉ s) : CLiteral (s.flatMap escChar) s := by
  induction s with
  | nil => exact .nil
  | cons c s ih =>
    simp only [List.mem_cons, not_or] at h
    have ih := ih h.2
    rw [List.flatMap_cons]
    unfold escChar
    by_cases h1 : c = 34
    · rw [if_pos h1, h1]; exact .simple (by decide) ih
    rw [if_neg h1]
    by_cases h2 : c = 10
    · rw [if_pos h2, h2]; exact .simple (by decide) ih
    rw [if_neg h2]
    by_cases h3 : c = 9
    · rw [if_pos h3, h3]; exact .simple (by decide) ih
    rw [if_neg h3]
    exact .plain h1 (Ne.symm h.1) h2 ih

theorem octal_lit {c : Byte} {d : Nat} (h : octal c = some d) :
    (48 ≤ c.toNat ∧ c.toNat ≤ 55) ∧ d = c.toNat - 48 := by
  unfold octal at h
  split at h
  · rename_i hh; simp at h; exact ⟨hh, h.symm⟩
  · simp at h

theorem lit_plain {c : Byte} {t b : Bytes} (h : CLiteral (c :: t) b) (hc : c ≠ 92) :
    c ≠ 34 ∧ ∃ b', b = c :: b' ∧ CLiteral t b' := by
  generalize ht : c :: t = t' at h
  cases h with
  | nil => simp at ht
  | plain h1 h2 h3 h => simp at ht; obtain ⟨rfl, rfl⟩ := ht; exact ⟨h1, _, rfl, h⟩
  | simple _ _ => simp at ht; exact absurd ht.1 hc
  | octal1 _ _ _ => simp at ht; exact absurd ht.1 hc
  | octal2 _ _ _ _ => simp at ht; exact absurd ht.1 hc
  | octal3 _ _ _ _ _ => simp at ht; exact absurd ht.1 hc

def IsOctal (c : Byte) : Prop := 48 ≤ c.toNat ∧ c.toNat ≤ 55

theorem lit_esc {t b : Bytes} (h : CLiteral (92 :: t) b) :
    (∃ c t' d b', t = c :: t' ∧ b = d :: b' ∧ CLiteral t' b' ∧ simpleEscape c = some d) ∨
    (∃ pre t' d b', t = pre ++ t' ∧ b = d :: b' ∧ CLiteral t' b' ∧ pre ≠ [] ∧ ∀ c ∈ pre, IsOctal c) := by
  generalize ht : 92 :: t = t0 at h
  cases h with
  | nil => simp at ht
  | plain h1 h2 h3 h => simp at ht; exact absurd ht.1.symm h2
  | simple hd h => simp at ht; exact .inl ⟨_, _, _, _, ht, rfl, h, hd⟩
  | octal1 h1 _ h =>
    simp at ht
    refine .inr ⟨[_], _, _, _, ht, rfl, h, by simp, ?_⟩
    intro c hc; simp at hc; rw [hc]; exact (octal_lit h1).1
  | octal2 h1 h2 _ h =>
    simp at ht
    refine .inr ⟨[_, _], _, _, _, ht, rfl, h, by simp, ?_⟩
    intro c hc; simp at hc
    rcases hc with rfl | rfl
    · exact (octal_lit h1).1
    · exact (octal_lit h2).1
  | octal3 h1 h2 h3 _ h =>
    simp at ht
    refine .inr ⟨[_, _, _], _, _, _, ht, rfl, h, by simp, ?_⟩
    intro c hc; simp at hc
    rcases hc with rfl | rfl | rfl
    · exact (octal_lit h1).1
    · exact (octal_lit h2).1
    · exact (octal_lit h3).1

theorem escChar_cases (c : Byte) : (escChar c = [c] ∧ c ≠ 34 ∧ c ≠ 10 ∧ c ≠ 9) ∨
    (c = 34 ∧ escChar c = [92, 34]) ∨ (c = 10 ∧ escChar c = [92, 110]) ∨ (c = 9 ∧ escChar c = [92, 116]) := by
  unfold escChar
  by_cases h1 : c = 34
  · exact .inr (.inl ⟨h1, by rw [if_pos h1]⟩)
  · rw [if_neg h1]
    by_cases h2 : c = 10
    · exact .inr (.inr (.inl ⟨h2, by rw [if_pos h2]⟩))
    · rw [if_neg h2]
      by_cases h3 : c = 9
      · exact .inr (.inr (.inr ⟨h3, by rw [if_pos h3]⟩))
      · rw [if_neg h3]; exact .inl ⟨rfl, h1, h2, h3⟩

/-- octal digits in the escaped text come from the string -/
theorem esc_octal {s : Bytes} : ∀ {pre t : Bytes}, s.flatMap escChar = pre ++ t → (∀ c ∈ pre, IsOctal c) →
    ∃ s', s = pre ++ s' ∧ t = s'.flatMap escChar := by
  induction s with
  | nil =>
    intro pre t h _
    simp at h
    exact ⟨[], by simp [h.1], by simp [h.2]⟩
  | cons c s ih =>
    intro pre t h ho
    cases pre with
    | nil => exact ⟨c :: s, rfl, h.symm⟩
    | cons p pre =>
      have hp := ho p (by simp)
      rw [List.flatMap_cons] at h
      have h92 : p ≠ 92 := by rintro rfl; revert hp; unfold IsOctal; decide
      rcases escChar_cases c with ⟨e, -⟩ | ⟨-, e⟩ | ⟨-, e⟩ | ⟨-, e⟩ <;> rw [e] at h <;>
        simp only [List.cons_append, List.nil_append, List.cons.injEq] at h
      · obtain ⟨s', h1, h2⟩ := ih h.2 (fun c hc => ho c (by simp [hc]))
        exact ⟨s', by rw [h.1, h1]; rfl, h2⟩
      · exact absurd h.1.symm h92
      · exact absurd h.1.symm h92
      · exact absurd h.1.symm h92

/-- the cases of a literal that starts with a backslash of the string -/
theorem lit_backslash {s b : Bytes} (h : CLiteral (92 :: s.flatMap escChar) b) :
    (∃ c s' d b', s = c :: s' ∧ b = d :: b' ∧ CLiteral (s'.flatMap escChar) b') ∨
    (∃ c x s' b', s = c :: s' ∧ x ≠ c ∧ b = 92 :: x :: b' ∧ CLiteral (s'.flatMap escChar) b') ∨
    (∃ pre s' d b', s = pre ++ s' ∧ pre ≠ [] ∧ b = d :: b' ∧ CLiteral (s'.flatMap escChar) b') := by
  rcases lit_esc h with ⟨c, t', d, b', e1, e2, hl, hd⟩ | ⟨pre, t', d, b', e1, e2, hl, hne, ho⟩
  · cases s with
    | nil => simp at e1
    | cons c2 s' =>
      rw [List.flatMap_cons] at e1
      rcases escChar_cases c2 with ⟨e, -⟩ | ⟨hc, e⟩ | ⟨hc, e⟩ | ⟨hc, e⟩ <;> rw [e] at e1 <;>
        simp only [List.cons_append, List.nil_append, List.cons.injEq] at e1
      · exact .inl ⟨c2, s', d, b', rfl, e2, e1.2 ▸ hl⟩
      · rw [← e1.2] at hl
        exact absurd rfl (lit_plain hl (by decide)).1
      · rw [← e1.2] at hl
        obtain ⟨-, b'', e3, hl⟩ := lit_plain hl (by decide)
        have : d = 92 := by rw [← e1.1] at hd; simpa [simpleEscape] using hd.symm
        exact .inr (.inl ⟨c2, 110, s', b'', rfl, by rw [hc]; decide, by rw [e2, e3, this], hl⟩)
      · rw [← e1.2] at hl
        obtain ⟨-, b'', e3, hl⟩ := lit_plain hl (by decide)
        have : d = 92 := by rw [← e1.1] at hd; simpa [simpleEscape] using hd.symm
        exact .inr (.inl ⟨c2, 116, s', b'', rfl, by rw [hc]; decide, by rw [e2, e3, this], hl⟩)
  · obtain ⟨s', h1, h2⟩ := esc_octal e1 ho
    exact .inr (.inr ⟨pre, s', d, b', h1, hne, e2, h2 ▸ hl⟩)

/-- what a literal denotes that starts with an escaped quote, newline or tab, or with a plain character -/
theorem lit_head {c : Byte} {s b : Bytes} (hc : c ≠ 92) (h : CLiteral ((c :: s).flatMap escChar) b) :
    ∃ b', b = c :: b' ∧ CLiteral (s.flatMap escChar) b' := by
  have esc : ∀ x y, simpleEscape x = some y → octal x = none → CLiteral (92 :: x :: s.flatMap escChar) b →
      ∃ b', b = y :: b' ∧ CLiteral (s.flatMap escChar) b' := by
    intro x y hx ho h
    rcases lit_esc h with ⟨c, t', d, b', e1, e2, hl, hd⟩ | ⟨pre, t', d, b', e1, e2, hl, hne, hoc⟩
    · simp at e1
      rw [← e1.1, hx] at hd
      simp at hd
      exact ⟨b', by rw [e2, hd], e1.2 ▸ hl⟩
    · cases pre with
      | nil => exact absurd rfl hne
      | cons p pre =>
        simp at e1
        have := hoc p (by simp)
        rw [← e1.1] at this
        unfold octal at ho
        unfold IsOctal at this
        rw [if_pos this] at ho
        simp at ho
  rw [List.flatMap_cons] at h
  rcases escChar_cases c with ⟨e, -⟩ | ⟨hc, e⟩ | ⟨hc, e⟩ | ⟨hc, e⟩ <;> rw [e] at h
  · exact (lit_plain h hc).2
  · rw [hc]; exact esc 34 34 (by decide) (by decide) h
  · rw [hc]; exact esc 110 10 (by decide) (by decide) h
  · rw [hc]; exact esc 116 9 (by decide) (by decide) h

/-- The escaped text never denotes more bytes than the string has. -/
theorem literal_length (n : Nat) : ∀ (s b : Bytes), s.length ≤ n → CLiteral (s.flatMap escChar) b →
    b.length ≤ s.length := by
  induction n with
  | zero =>
    intro s b hs h
    have : s = [] := List.length_eq_zero_iff.mp (by omega)
    subst this
    cases h; simp
  | succ n ih =>
    intro s b hs h
    cases s with
    | nil => cases h; simp
    | cons c s =>
      simp only [List.length_cons] at hs ⊢
      by_cases hc : c = 92
      · subst hc
        rcases lit_backslash h with ⟨c, s', d, b', rfl, rfl, hl⟩ | ⟨c, x, s', b', rfl, -, rfl, hl⟩ |
            ⟨pre, s', d, b', rfl, hne, rfl, hl⟩
        · have := ih s' b' (by simp at hs; omega) hl
          simp; omega
        · have := ih s' b' (by simp at hs; omega) hl
          simp; omega
        · have hp : 0 < pre.length := List.length_pos_iff.mpr hne
          have := ih s' b' (by simp at hs; omega) hl
          simp; omega
      · obtain ⟨b', rfl, hl⟩ := lit_head hc h
        have := ih s b' (by omega) hl
        simp; omega

/-- a string with a backslash is never written as a literal for it -/
theorem backslash_lost {s : Bytes} (h : (92 : Byte) ∈ s) : ¬ CLiteral (s.flatMap escChar) s := by
  induction s with
  | nil => simp at h
  | cons c s ih =>
    intro hl
    by_cases hc : c = 92
    · subst hc
      rcases lit_backslash hl with ⟨c, s', d, b', rfl, e, hl⟩ | ⟨c, x, s', b', rfl, hx, e, hl⟩ |
          ⟨pre, s', d, b', rfl, hne, e, hl⟩
      · simp at e
        have := literal_length _ _ _ (Nat.le_refl _) hl
        rw [← e.2] at this
        simp at this
        omega
      · simp at e; exact hx e.1.symm
      · simp at e
        have := literal_length _ _ _ (Nat.le_refl _) hl
        have hp : 0 < pre.length := List.length_pos_iff.mpr hne
        rw [← e.2] at this
        simp at this
        omega
    · obtain ⟨b', e, hl⟩ := lit_head hc hl
      simp at e
      subst e
      exact ih (by simpa [Ne.symm hc] using h) hl

/-- C39, exactly: the text the compiler writes for a string without NUL always exists, and it is a C literal
for that string if and only if the string has no backslash. -/
theorem C39_string_constant_partial (junk : Nat → Byte) (s : Bytes) (h0 : (0 : Byte) ∉ s) :
    ∃ t, constText junk s = some t ∧ (CLiteral t s ↔ (92 : Byte) ∉ s) :=
  ⟨_, constText_eq junk h0, fun h h92 => backslash_lost h92 h, esc_literal⟩

theorem upToNul_no_nul (s : Bytes) : (0 : Byte) ∉ upToNul s := by
  unfold upToNul
  induction s with
  | nil => simp
  | cons a s ih =>
    rw [List.takeWhile_cons]
    split
    · rename_i h; simp at h; simp only [List.mem_cons, not_or]; exact ⟨Ne.symm h, ih⟩
    · simp

/-- C39, the string the compiled program sees: a string without backslash and NUL survives. -/
theorem C39_survives_partial (junk : Nat → Byte) (s : Bytes) (h0 : (0 : Byte) ∉ s) (h92 : (92 : Byte) ∉ s) :
    ∃ t b, constText junk s = some t ∧ CLiteral t b ∧ makeCString b = s :=
  ⟨_, s, constText_eq junk h0, esc_literal h92, upToNul_self h0⟩

/-- C39 is false: no string with a NUL byte survives. -/
theorem C39_nul_never_survives (b s : Bytes) (h0 : (0 : Byte) ∈ s) : makeCString b ≠ s := by
  intro e
  exact upToNul_no_nul b (by unfold makeCString at e; rw [e]; exact h0)

/-- C39 is false: the constant `a\nb` (a backslash and an n) becomes a newline. -/
theorem C39_backslash_changes (junk : Nat → Byte) :
    constText junk [97, 92, 110, 98] = some [97, 92, 110, 98] ∧ CLiteral [97, 92, 110, 98] [97, 10, 98] := by
  refine ⟨by rw [constText_eq junk (by decide)]; decide, ?_⟩
  exact .plain (by decide) (by decide) (by decide) (.simple (by decide) (.plain (by decide) (by decide) (by decide) .nil))

/-- a quote, a newline and a tab survive -/
example (junk : Nat → Byte) : ∃ t b, constText junk [34, 10, 9, 255] = some t ∧ CLiteral t b ∧
    makeCString b = [34, 10, 9, 255] := C39_survives_partial junk _ (by decide) (by decide)

end Cora
