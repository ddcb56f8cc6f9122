import Verif.Lemmas.Num
import Verif.Spec.Double
namespace Cora
open Spec

theorem scaledValue_fields (o : Obj) : scaledValue o =
    (if expField o = 2047 then none else
      let mag : Nat := if expField o = 0 then fracField o else (2 ^ 52 + fracField o) * 2 ^ (expField o - 1)
      if signBit o then some (-(mag : Int)) else some (mag : Int)) := by
  unfold scaledValue expField fracField signBit
  simp

/-- pow splitting without unfolding the huge numeral -/
theorem pow_split (a b : Nat) : (2:Nat) ^ (a + b) = 2 ^ a * 2 ^ b := Nat.pow_add 2 a b

/-- scaled magnitude of an integral double is its truncation times 2^1074 -/
theorem mag_trunc {o : Obj} (hi : isIntegral o = true) (hE : expField o ≠ 2047) :
    (if expField o = 0 then fracField o else (2 ^ 52 + fracField o) * 2 ^ (expField o - 1)) = truncMag o * 2 ^ 1074 := by
  unfold isIntegral at hi
  unfold truncMag
  simp only [hE, if_false] at hi
  generalize fracField o = F at *
  generalize expField o = E at *
  generalize hP : (2:Nat) ^ 52 = P at *
  by_cases h1 : E < 1023
  · simp only [h1, if_true, Bool.and_eq_true, beq_iff_eq] at hi
    obtain ⟨rfl, rfl⟩ := hi
    simp
  · have hE0 : E ≠ 0 := by omega
    simp only [h1, if_false, hE0] at hi ⊢
    by_cases h2 : 1075 ≤ E
    · simp only [h2, if_true]
      have e : E - 1 = (E - 1075) + 1074 := by omega
      rw [e, pow_split, Nat.mul_assoc]
    · simp only [h2, if_false, beq_iff_eq] at hi ⊢
      have e : (1074:Nat) = (1075 - E) + (E - 1) := by omega
      have hd : (P + F) / 2 ^ (1075 - E) * 2 ^ (1075 - E) = P + F :=
        Nat.div_mul_cancel (Nat.dvd_of_mod_eq_zero hi)
      conv => rhs; rw [e, pow_split, ← Nat.mul_assoc, hd]

theorem scaledInt_ofNat (m : Nat) : scaledInt (m : Int) = ((m * 2 ^ 1074 : Nat) : Int) := by
  unfold scaledInt
  rw [Int.natCast_mul, Int.natCast_pow]; rfl

theorem scaledInt_neg (n : Int) : scaledInt (-n) = - scaledInt n := Int.neg_mul _ _

theorem fixnum_scaled {o : Obj} {n : Int} (h : fixnum o = some n) : scaledValue o = some (scaledInt n) := by
  unfold fixnum at h
  by_cases hc : (isfixnum o && expField o != 2047) = true
  · rw [if_pos hc] at h
    simp only [Bool.and_eq_true, bne_iff_ne, isfixnum] at hc
    obtain ⟨⟨_, hi⟩, hE⟩ := hc
    rw [scaledValue_fields, if_neg hE]
    simp only [mag_trunc hi hE]
    by_cases hs : signBit o = true
    · simp only [hs, if_true, Option.ite_none_right_eq_some, Option.some.injEq] at h ⊢
      rw [← h.2, scaledInt_neg, scaledInt_ofNat]
    · have hs' : signBit o = false := by simpa using hs
      simp only [hs', Bool.false_eq_true, if_false, Option.ite_none_right_eq_some, Option.some.injEq] at h ⊢
      rw [← h.2, scaledInt_ofNat]
  · rw [if_neg hc] at h; simp at h

theorem scaledInt_cases (v : Int) : scaledInt v =
    if v < 0 then -((v.natAbs * 2 ^ 1074 : Nat) : Int) else ((v.natAbs * 2 ^ 1074 : Nat) : Int) := by
  by_cases h : v < 0
  · have e : v = -(v.natAbs : Int) := by omega
    rw [if_pos h]
    conv => lhs; rw [e]
    rw [scaledInt_neg, scaledInt_ofNat]
  · have e : v = (v.natAbs : Int) := by omega
    rw [if_neg h]
    conv => lhs; rw [e]
    rw [scaledInt_ofNat]

theorem fixnum_isDoubleOf {o : Obj} {n : Int} (h : fixnum o = some n) : IsDoubleOf o n := by
  unfold IsDoubleOf
  exact fixnum_scaled h

theorem scaledInt_inj {a b : Int} (h : scaledInt a = scaledInt b) : a = b := by
  unfold scaledInt at h
  have hp : (2:Int) ^ 1074 ≠ 0 := by
    have : (0:Int) < 2 ^ 1074 := Int.pow_pos (by decide)
    omega
  exact Int.eq_of_mul_eq_mul_right hp h

/-- scaled magnitude of the double the code stores -/
theorem mag_encode {v : Int} (hv : v.natAbs ≤ 2 ^ 63) :
    ∃ M : Nat, scaledValue (doubleOfInt v) = some (if v < 0 then -(M : Int) else (M : Int)) ∧
      (M = v.natAbs * 2 ^ 1074 ∨
       (52 < Nat.log2 v.natAbs ∧ ∃ Q, 2 ^ 52 ≤ Q ∧ M = Q * 2 ^ (Nat.log2 v.natAbs - 52) * 2 ^ 1074 ∧
         2 * (Q * 2 ^ (Nat.log2 v.natAbs - 52)) ≤ 2 * v.natAbs + 2 ^ (Nat.log2 v.natAbs - 52) ∧
         2 * v.natAbs ≤ 2 * (Q * 2 ^ (Nat.log2 v.natAbs - 52)) + 2 ^ (Nat.log2 v.natAbs - 52))) := by
  obtain ⟨E, F, hE, hF, henc, h1, h2, h3⟩ := fields_doubleOfInt hv
  have hEne : ¬ E = 2047 := by omega
  rw [scaledValue_fields, h1, h2, h3, if_neg hEne]
  refine ⟨if E = 0 then F else (2 ^ 52 + F) * 2 ^ (E - 1), ?_, ?_⟩
  · by_cases h : v < 0 <;> simp only [h, decide_true, decide_false, if_true, if_false]
    simp
  · by_cases hs : v.natAbs ≤ 2 ^ 53
    · left
      obtain ⟨hi, ht⟩ := trunc_exact hs
      have := mag_trunc hi (by omega)
      rw [h1, h2, ht] at this
      exact this
    · right
      have h0 : v.natAbs ≠ 0 := by omega
      have he : 52 < Nat.log2 v.natAbs := by
        have := (Nat.le_log2 (n := v.natAbs) (k := 53) h0).mpr (by omega)
        omega
      refine ⟨he, ?_⟩
      obtain ⟨Q, hQ1, hQ2, hQ3, hQ4, hQ5⟩ := encodeMag_big he
      refine ⟨Q, hQ1, ?_, hQ4, hQ5⟩
      have hl : Nat.log2 v.natAbs < 64 := (Nat.log2_lt h0).mpr (by omega)
      rw [Nat.mul_assoc, ← pow_split]
      by_cases hQ : Q = 2 ^ 53
      · have hE' : E = 1023 + Nat.log2 v.natAbs + 1 := by omega
        have hF' : F = 0 := by omega
        have hE0 : ¬ E = 0 := by omega
        rw [if_neg hE0, hF', hQ, Nat.add_zero, ← pow_split, ← pow_split]
        congr 1; omega
      · have hE' : E = 1023 + Nat.log2 v.natAbs := by omega
        have hF' : 2 ^ 52 + F = Q := by omega
        have hE0 : ¬ E = 0 := by omega
        rw [if_neg hE0, hF']
        congr 2; omega

/-- every finite double of magnitude above `2^52 * 2^k` is a multiple of `2^k` -/
theorem mag_multiple {E F k : Nat} (hF : F < 2 ^ 52) (hE : E ≠ 0)
    (hbig : 2 ^ 52 * 2 ^ k < (2 ^ 52 + F) * 2 ^ (E - 1)) : ∃ c, (2 ^ 52 + F) * 2 ^ (E - 1) = c * 2 ^ k := by
  have : k ≤ E - 1 := by
    apply Nat.le_of_not_lt
    intro hlt
    have h1 : (2 ^ 52 + F) * 2 ^ (E - 1) < 2 ^ 53 * 2 ^ (E - 1) :=
      Nat.mul_lt_mul_of_pos_right (by omega) (Nat.two_pow_pos _)
    have h2 : 2 ^ 53 * 2 ^ (E - 1) = 2 ^ 52 * 2 ^ (E - 1 + 1) := by
      rw [← pow_split, ← pow_split]; congr 1; omega
    have h3 : 2 ^ 52 * 2 ^ (E - 1 + 1) ≤ 2 ^ 52 * 2 ^ k :=
      Nat.mul_le_mul_left _ (Nat.pow_le_pow_right (by decide) (by omega))
    omega
  refine ⟨(2 ^ 52 + F) * 2 ^ (E - 1 - k), ?_⟩
  rw [Nat.mul_assoc, ← pow_split]; congr 2; omega

theorem scaledValue_abs {o : Obj} {x : Int} (h : scaledValue o = some x) :
    x.natAbs = (if expField o = 0 then fracField o else (2 ^ 52 + fracField o) * 2 ^ (expField o - 1)) := by
  rw [scaledValue_fields] at h
  split at h
  · simp at h
  · simp only at h
    split at h <;> simp only [Option.some.injEq] at h <;> rw [← h] <;> simp

/-- purely arithmetic core of the nearest theorem: `T = Q*S*B` is the rounded value, `m*B` the exact
one, `x` any multiple of `S*B` or something at most `2^52*S*B`. -/
theorem nearest_core {m Q S B x : Nat} (hB : 0 < B) (hQ : 2 ^ 52 ≤ Q) (hm : 2 ^ 52 * S ≤ m)
    (h1 : 2 * (Q * S) ≤ 2 * m + S) (h2 : 2 * m ≤ 2 * (Q * S) + S)
    (hx : x ≤ 2 ^ 52 * (S * B) ∨ ∃ c, x = c * (S * B)) :
    ((Q * S * B : Nat) - (m * B : Nat) : Int).natAbs ≤ ((x : Nat) - (m * B : Nat) : Int).natAbs := by
  have hfac : ((Q * S * B : Nat) - (m * B : Nat) : Int).natAbs = ((Q * S : Nat) - (m : Nat) : Int).natAbs * B := by
    rw [Int.natCast_mul (Q * S) B, Int.natCast_mul m B, ← Int.sub_mul, Int.natAbs_mul]; simp
  rw [hfac]
  rcases hx with hx | ⟨c, rfl⟩
  · -- x ≤ 2^52 S B ≤ m B
    have hx' : x ≤ (2 ^ 52 * S) * B := by rw [Nat.mul_assoc]; exact hx
    have hmB : (2 ^ 52 * S) * B ≤ m * B := Nat.mul_le_mul_right _ hm
    have hge : (m * B - (2 ^ 52 * S) * B) ≤ ((x : Nat) - (m * B : Nat) : Int).natAbs := by omega
    refine Nat.le_trans ?_ hge
    rw [← Nat.mul_sub_right_distrib]
    apply Nat.mul_le_mul_right
    -- Q S within S/2 of m and Q S ≥ 2^52 S
    have hQS : 2 ^ 52 * S ≤ Q * S := Nat.mul_le_mul_right _ hQ
    by_cases hlt : Q * S ≤ m
    · omega
    · -- Q*S > m ≥ 2^52 S, so Q ≥ 2^52+1 and m ≥ QS - S/2 ≥ 2^52 S + S/2
      have hQ' : 2 ^ 52 + 1 ≤ Q := by
        apply Nat.succ_le_of_lt
        apply Nat.lt_of_le_of_ne hQ
        intro he
        rw [← he] at hlt
        omega
      have : (2 ^ 52 + 1) * S ≤ Q * S := Nat.mul_le_mul_right _ hQ'
      rw [Nat.add_mul] at this
      omega
  · have hfac2 : ((c * (S * B) : Nat) - (m * B : Nat) : Int).natAbs = ((c * S : Nat) - (m : Nat) : Int).natAbs * B := by
      rw [← Nat.mul_assoc, Int.natCast_mul (c * S) B, Int.natCast_mul m B, ← Int.sub_mul, Int.natAbs_mul]; simp
    rw [hfac2]
    apply Nat.mul_le_mul_right
    by_cases hc : c = Q
    · subst hc; omega
    · rcases Nat.lt_or_gt_of_ne hc with hc | hc
      · have : (c + 1) * S ≤ Q * S := Nat.mul_le_mul_right _ hc
        rw [Nat.add_mul] at this
        omega
      · have : (Q + 1) * S ≤ c * S := Nat.mul_le_mul_right _ hc
        rw [Nat.add_mul] at this
        omega

end Cora
