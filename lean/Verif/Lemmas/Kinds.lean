import Verif.Spec.Kinds
import Verif.Lemmas.Num
import Verif.Lemmas.NaNBox
/-! Reading memory byte by byte; the bits of large integers (used by C103). -/
namespace Cora.Kinds
open Spec.Kinds

theorem bytesAt_succ (m : Mem) (a n : Nat) : bytesAt m a (n + 1) = (m a).bind fun b => (bytesAt m (a + 1) n).bind fun r => some (b :: r) := rfl

theorem bytesAt_drop {m : Mem} : ∀ {i a n : Nat} {l : List (BitVec 8)}, bytesAt m a (i + n) = some l → bytesAt m (a + i) n = some (l.drop i)
  | 0, a, n, l, h => by simpa using h
  | i + 1, a, n, l, h => by
      rw [show i + 1 + n = (i + n) + 1 by omega, bytesAt_succ] at h
      cases hb : m a with
      | none => simp [hb] at h
      | some b =>
        cases hr : bytesAt m (a + 1) (i + n) with
        | none => simp [hb, hr] at h
        | some r =>
          simp only [hb, hr, Option.bind_some, Option.some.injEq] at h
          subst h
          have := bytesAt_drop hr
          rw [show a + (i + 1) = a + 1 + i by omega]
          simpa using this

theorem bytesAt_take {m : Mem} : ∀ {k a n : Nat} {l : List (BitVec 8)}, bytesAt m a (k + n) = some l → bytesAt m a k = some (l.take k)
  | 0, a, n, l, _ => by simp [bytesAt]
  | k + 1, a, n, l, h => by
      rw [show k + 1 + n = (k + n) + 1 by omega, bytesAt_succ] at h
      cases hb : m a with
      | none => simp [hb] at h
      | some b =>
        cases hr : bytesAt m (a + 1) (k + n) with
        | none => simp [hb, hr] at h
        | some r =>
          simp only [hb, hr, Option.bind_some, Option.some.injEq] at h
          subst h
          rw [bytesAt_succ, hb, bytesAt_take hr]
          simp

theorem bytesAt_slice {m : Mem} {a n : Nat} {l : List (BitVec 8)} (h : bytesAt m a n = some l) {i k : Nat} (hk : i + k ≤ n) :
    bytesAt m (a + i) k = some (slice l i k) := by
  have h1 : bytesAt m a (i + (k + (n - (i + k)))) = some l := by rw [show i + (k + (n - (i + k))) = n by omega]; exact h
  exact bytesAt_take (bytesAt_drop h1)

theorem bytesAt_append {m : Mem} : ∀ {i a n : Nat} {l r : List (BitVec 8)}, bytesAt m a i = some l → bytesAt m (a + i) n = some r →
    bytesAt m a (i + n) = some (l ++ r)
  | 0, a, n, l, r, h, h' => by
      simp only [bytesAt, Option.some.injEq] at h; subst h; simpa using h'
  | i + 1, a, n, l, r, h, h' => by
      rw [bytesAt_succ] at h
      cases hb : m a with
      | none => simp [hb] at h
      | some b =>
        cases hr : bytesAt m (a + 1) i with
        | none => simp [hb, hr] at h
        | some q =>
          simp only [hb, hr, Option.bind_some, Option.some.injEq] at h
          subst h
          rw [show i + 1 + n = (i + n) + 1 by omega, bytesAt_succ, hb,
            bytesAt_append hr (by rw [show a + 1 + i = a + (i + 1) by omega]; exact h')]
          rfl

theorem bytesAt_length {m : Mem} : ∀ {n a : Nat} {l : List (BitVec 8)}, bytesAt m a n = some l → l.length = n
  | 0, a, l, h => by simp only [bytesAt, Option.some.injEq] at h; subst h; rfl
  | n + 1, a, l, h => by
      rw [bytesAt_succ] at h
      cases hb : m a with
      | none => simp [hb] at h
      | some b =>
        cases hr : bytesAt m (a + 1) n with
        | none => simp [hb, hr] at h
        | some q =>
          simp only [hb, hr, Option.bind_some, Option.some.injEq] at h
          subst h
          simp [bytesAt_length hr]

theorem le_append : ∀ (l r : List (BitVec 8)), le (l ++ r) = le l + 256 ^ l.length * le r
  | [], r => by simp [le]
  | b :: l, r => by
      simp only [List.cons_append, le, le_append l r, List.length_cons, Nat.pow_succ]
      rw [Nat.mul_add, ← Nat.mul_assoc, Nat.mul_comm 256 (256 ^ l.length)]; omega

theorem int32At_eq {m : Mem} {a : Nat} {l : List (BitVec 8)} (h : bytesAt m a 4 = some l) : int32At m a = some (signed l) := by
  simp [int32At, h, signed]

theorem wordAt_eq {m : Mem} {a : Nat} {l : List (BitVec 8)} (h : bytesAt m a 8 = some l) : wordAt m a = some (BitVec.ofNat 64 (le l)) := by
  simp [wordAt, h]

theorem named_type {m : Mem} {a : Nat} {s : List (BitVec 8)} (h : Named m a s) : m (a + 4) = some (BitVec.ofNat 8 s.length) := by
  obtain ⟨-, h, -⟩ := h
  rw [bytesAt_succ] at h
  cases hb : m (a + 4) with
  | none => simp [hb] at h
  | some b =>
    cases hr : bytesAt m (a + 4 + 1) 3 with
    | none => simp [hb, hr] at h
    | some r =>
      simp only [hb, hr, Option.bind_some, Option.map_some, Option.some.injEq, le] at h
      congr 1
      apply BitVec.eq_of_toNat_eq
      rw [← h, BitVec.toNat_ofNat]
      have := b.isLt
      omega

theorem addr_eq (o : Obj) : addr o = o.toNat % 2 ^ 48 := by
  have : (1#64 <<< 48) - 1#64 = BitVec.ofNat 64 (2 ^ 48 - 1) := by decide
  rw [addr, ptrOf, this, BitVec.toNat_and, BitVec.toNat_ofNat, Nat.mod_eq_of_lt (by decide : 2 ^ 48 - 1 < 2 ^ 64), Nat.and_two_pow_sub_one_eq_mod]

theorem tag_eq (o : Obj) : (tagOf o).toNat = o.toNat / 2 ^ 48 % 8 := by
  rw [tagOf, BitVec.toNat_and, BitVec.toNat_ushiftRight, Nat.shiftRight_eq_div_pow]
  exact Nat.and_two_pow_sub_one_eq_mod (o.toNat / 2 ^ 48) 3

theorem forged_word {t a : Nat} (ht : t < 8) (ha : a < 2 ^ 48) :
    (doubleOfInt (forged t a)).toNat = 1075 * 2 ^ 52 + (t * 2 ^ 48 + a) := by
  have hn : (forged t a).natAbs = 2 ^ 52 + t * 2 ^ 48 + a := by simp only [forged]; omega
  have h0 : ¬ forged t a < 0 := by simp only [forged]; omega
  have hl : Nat.log2 (2 ^ 52 + t * 2 ^ 48 + a) = 52 := by
    rw [Nat.log2_eq_iff (by omega)]; omega
  rw [doubleOfInt_toNat (by rw [hn]; omega), hn, if_neg h0, encodeMag, if_neg (by omega)]
  simp only [hl]
  rw [if_pos (Nat.le_refl 52)]
  omega

theorem forged_bits {t a : Nat} (ht : t < 8) (ha : a < 2 ^ 48) :
    addr (doubleOfInt (forged t a)) = a ∧ tagOf (doubleOfInt (forged t a)) = BitVec.ofNat 64 t := by
  constructor
  · rw [addr_eq, forged_word ht ha]; omega
  · apply BitVec.eq_of_toNat_eq
    rw [tag_eq, forged_word ht ha, BitVec.toNat_ofNat]; omega

theorem forged_abs {t a : Nat} (ht : t < 8) (ha : a < 2 ^ 48) : (forged t a).natAbs ≤ 2 ^ 53 := by
  simp only [forged]; omega

theorem forged_in {t a : Nat} (ht : t < 8) (ha : a < 2 ^ 48) : inInt64 (forged t a) = true := by
  have := forged_abs ht ha
  generalize forged t a = v at this
  simp only [inInt64, Bool.and_eq_true, decide_eq_true_eq]; omega

/-- an odd number of five bits, doubled `k` times -/
theorem five_word {d k : Nat} (hd : 16 ≤ d) (hd' : d < 32) (hk : k ≤ 48) :
    (doubleOfInt ((d * 2 ^ k : Nat) : Int)).toNat = (1027 + k) * 2 ^ 52 + (d - 16) * 2 ^ 48 := by
  have hpos : 0 < 2 ^ k := Nat.two_pow_pos k
  have h16 : 16 * 2 ^ k ≤ d * 2 ^ k := Nat.mul_le_mul_right _ hd
  have h32 : d * 2 ^ k < 32 * 2 ^ k := Nat.mul_lt_mul_of_pos_right hd' hpos
  have hl : Nat.log2 (d * 2 ^ k) = k + 4 := by
    rw [Nat.log2_eq_iff (by omega)]
    constructor
    · rw [Nat.pow_add]; omega
    · rw [show k + 4 + 1 = k + 5 by omega, Nat.pow_add]; omega
  have hmul : d * 2 ^ k * 2 ^ (52 - (k + 4)) = d * 2 ^ 48 := by
    rw [Nat.mul_assoc, ← Nat.pow_add, show k + (52 - (k + 4)) = 48 by omega]
  have h48 : 2 ^ k ≤ 2 ^ 48 := Nat.pow_le_pow_right (by omega) hk
  rw [doubleOfInt_toNat (by rw [Int.natAbs_natCast]; omega), Int.natAbs_natCast, if_neg (by omega), encodeMag, if_neg (by omega)]
  simp only [hl, hmul]
  rw [if_pos (by omega)]
  omega

end Cora.Kinds
