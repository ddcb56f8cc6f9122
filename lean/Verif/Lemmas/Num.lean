import Verif.Lemmas.NaNBox
namespace Cora

theorem log2_bounds {m : Nat} (h : m ≠ 0) : 2 ^ Nat.log2 m ≤ m ∧ m < 2 ^ (Nat.log2 m + 1) :=
  ⟨Nat.log2_self_le h, Nat.lt_log2_self⟩

/-- shape of the encoding in the exact range -/
theorem encodeMag_small {m : Nat} (h0 : m ≠ 0) (he : Nat.log2 m ≤ 52) :
    ∃ f, f < 2 ^ 52 ∧ encodeMag m = (1023 + Nat.log2 m) * 2 ^ 52 + f ∧ 2 ^ 52 + f = m * 2 ^ (52 - Nat.log2 m) := by
  obtain ⟨h1, h2⟩ := log2_bounds h0
  refine ⟨m * 2 ^ (52 - Nat.log2 m) - 2 ^ 52, ?_, ?_, ?_⟩
  · have : m * 2 ^ (52 - Nat.log2 m) < 2 ^ (Nat.log2 m + 1) * 2 ^ (52 - Nat.log2 m) :=
      Nat.mul_lt_mul_of_pos_right h2 (Nat.two_pow_pos _)
    rw [← Nat.pow_add] at this
    have e : Nat.log2 m + 1 + (52 - Nat.log2 m) = 53 := by omega
    rw [e] at this
    omega
  · simp [encodeMag, h0, he]
  · have : 2 ^ Nat.log2 m * 2 ^ (52 - Nat.log2 m) ≤ m * 2 ^ (52 - Nat.log2 m) := Nat.mul_le_mul_right _ h1
    rw [← Nat.pow_add] at this
    have e : Nat.log2 m + (52 - Nat.log2 m) = 52 := by omega
    rw [e] at this
    omega

/-- shape of the encoding beyond 53 bits: `Q` is the rounded 53-bit significand (possibly `2^53`) -/
theorem encodeMag_big {m : Nat} (he : 52 < Nat.log2 m) :
    ∃ Q, 2 ^ 52 ≤ Q ∧ Q ≤ 2 ^ 53 ∧ encodeMag m = (1023 + Nat.log2 m) * 2 ^ 52 + (Q - 2 ^ 52) ∧
      2 * (Q * 2 ^ (Nat.log2 m - 52)) ≤ 2 * m + 2 ^ (Nat.log2 m - 52) ∧
      2 * m ≤ 2 * (Q * 2 ^ (Nat.log2 m - 52)) + 2 ^ (Nat.log2 m - 52) := by
  have h0 : m ≠ 0 := by intro h; subst h; simp at he
  obtain ⟨h1, h2⟩ := log2_bounds h0
  generalize hS : 2 ^ (Nat.log2 m - 52) = S
  have hSpos : 0 < S := by rw [← hS]; exact Nat.two_pow_pos _
  have hlo : 2 ^ 52 * S ≤ m := by
    rw [← hS, ← Nat.pow_add]
    have e : 52 + (Nat.log2 m - 52) = Nat.log2 m := by omega
    rw [e]; exact h1
  have hhi : m < 2 ^ 53 * S := by
    rw [← hS, ← Nat.pow_add]
    have e : 53 + (Nat.log2 m - 52) = Nat.log2 m + 1 := by omega
    rw [e]; exact h2
  have hq1 : 2 ^ 52 ≤ m / S := (Nat.le_div_iff_mul_le hSpos).mpr hlo
  have hq2 : m / S < 2 ^ 53 := (Nat.div_lt_iff_lt_mul hSpos).mpr hhi
  have hdm := Nat.div_add_mod m S
  have hr := Nat.mod_lt m hSpos
  have hne : ¬ Nat.log2 m ≤ 52 := by omega
  have henc : encodeMag m = (1023 + Nat.log2 m) * 2 ^ 52 + (m / S - 2 ^ 52) +
      (if 2 * (m % S) > S ∨ (2 * (m % S) = S ∧ m / S % 2 = 1) then 1 else 0) := by
    simp only [encodeMag, h0, hne, if_false, hS]
  by_cases hup : 2 * (m % S) > S ∨ (2 * (m % S) = S ∧ m / S % 2 = 1)
  · refine ⟨m / S + 1, by omega, by omega, ?_, ?_, ?_⟩
    · rw [henc, if_pos hup]; omega
    · rw [Nat.add_mul, Nat.mul_comm (m / S) S]; omega
    · rw [Nat.add_mul, Nat.mul_comm (m / S) S]; omega
  · refine ⟨m / S, hq1, by omega, ?_, ?_, ?_⟩
    · rw [henc, if_neg hup]; omega
    · rw [Nat.mul_comm (m / S) S]; omega
    · rw [Nat.mul_comm (m / S) S]; omega

theorem encodeMag_lt {m : Nat} (hm : m ≤ 2 ^ 63) : encodeMag m < 1088 * 2 ^ 52 := by
  by_cases h0 : m = 0
  · subst h0; simp [encodeMag]
  · have hl : Nat.log2 m < 64 := (Nat.log2_lt h0).mpr (by omega)
    by_cases he : Nat.log2 m ≤ 52
    · obtain ⟨f, hf, h, _⟩ := encodeMag_small h0 he
      rw [h]; omega
    · obtain ⟨Q, hQ1, hQ2, h, _⟩ := encodeMag_big (Nat.lt_of_not_le he)
      rw [h]
      have : Nat.log2 m = 63 ∨ Nat.log2 m < 63 := by omega
      rcases this with h63 | h63
      · -- only m = 2^63, which is exact
        have hb := (log2_bounds h0).1
        rw [h63] at hb
        have hm' : m = 2 ^ 63 := by omega
        have : encodeMag (2 ^ 63) = 1086 * 2 ^ 52 := by decide +kernel
        rw [← h, hm', this]; omega
      · omega

theorem doubleOfInt_toNat {v : Int} (hv : v.natAbs ≤ 2 ^ 63) :
    (doubleOfInt v).toNat = (if v < 0 then 2 ^ 63 else 0) + encodeMag v.natAbs := by
  unfold doubleOfInt
  rw [BitVec.toNat_ofNat]
  apply Nat.mod_eq_of_lt
  have := encodeMag_lt hv
  split <;> omega

theorem inInt64_natAbs {v : Int} (h : inInt64 v = true) : v.natAbs ≤ 2 ^ 63 := by
  simp [inInt64] at h; omega

theorem isNumber_doubleOfInt {v : Int} (hv : v.natAbs ≤ 2 ^ 63) : isNumber (doubleOfInt v) = true := by
  rw [isNumber_eq_not]
  have : ¬ isobj (doubleOfInt v) = true := by
    rw [isobj_iff_div, doubleOfInt_toNat hv]
    have := encodeMag_lt hv
    split <;> omega
  simp [this]

theorem makeNumber_eq {v : Int} (hv : inInt64 v = true) : makeNumber v = some (doubleOfInt v) := by
  simp [makeNumber, isNumber_doubleOfInt (inInt64_natAbs hv)]

theorem fields_of_toNat {o : Obj} {s : Bool} {E F : Nat} (hE : E < 2048) (hF : F < 2 ^ 52)
    (h : o.toNat = (if s then 2 ^ 63 else 0) + (E * 2 ^ 52 + F)) :
    expField o = E ∧ fracField o = F ∧ signBit o = s := by
  unfold expField fracField signBit
  cases s <;> simp at h ⊢ <;> omega

theorem fields_doubleOfInt {v : Int} (hv : v.natAbs ≤ 2 ^ 63) :
    ∃ E F, E < 2047 ∧ F < 2 ^ 52 ∧ encodeMag v.natAbs = E * 2 ^ 52 + F ∧
    expField (doubleOfInt v) = E ∧ fracField (doubleOfInt v) = F ∧ signBit (doubleOfInt v) = decide (v < 0) := by
  have hlt := encodeMag_lt hv
  refine ⟨encodeMag v.natAbs / 2 ^ 52, encodeMag v.natAbs % 2 ^ 52, by omega, by omega, by omega, ?_⟩
  apply fields_of_toNat (by omega) (by omega)
  rw [doubleOfInt_toNat hv]
  by_cases h : v < 0 <;> simp [h] <;> omega

/-- every integer up to 2^53 in magnitude is stored exactly -/
theorem trunc_exact {v : Int} (hv : v.natAbs ≤ 2 ^ 53) :
    isIntegral (doubleOfInt v) = true ∧ truncMag (doubleOfInt v) = v.natAbs := by
  obtain ⟨E, F, hE, hF, henc, h1, h2, h3⟩ := fields_doubleOfInt (v := v) (by omega)
  unfold isIntegral truncMag
  simp only [h1, h2]
  by_cases h0 : v.natAbs = 0
  · rw [h0] at henc
    have : encodeMag 0 = 0 := rfl
    have hE0 : E = 0 := by omega
    have hF0 : F = 0 := by omega
    subst hE0 hF0
    simp [h0]
  · by_cases he : Nat.log2 v.natAbs ≤ 52
    · obtain ⟨f, hf, h, hff⟩ := encodeMag_small h0 he
      have hEe : E = 1023 + Nat.log2 v.natAbs := by omega
      have hFe : F = f := by omega
      have n1 : ¬ E = 2047 := by omega
      have n2 : ¬ E < 1023 := by omega
      have e1 : 1075 - E = 52 - Nat.log2 v.natAbs := by omega
      simp only [n1, n2, if_false]
      by_cases h75 : 1075 ≤ E
      · have e2 : Nat.log2 v.natAbs = 52 := by omega
        have e3 : E - 1075 = 0 := by omega
        simp only [h75, if_true, e3]
        rw [e2] at hff
        simp at hff ⊢
        omega
      · simp only [h75, if_false, e1, hFe, hff]
        refine ⟨by simp, ?_⟩
        exact Nat.mul_div_cancel _ (Nat.two_pow_pos _)
    · have hm : v.natAbs = 2 ^ 53 := by
        have := Nat.log2_lt h0 (k := 53)
        omega
      have : encodeMag (2 ^ 53) = 1076 * 2 ^ 52 := by decide +kernel
      rw [hm, this] at henc
      have hE' : E = 1076 := by omega
      have hF' : F = 0 := by omega
      subst hE' hF'
      rw [hm]
      simp

theorem fixnum_doubleOfInt {v : Int} (hv : v.natAbs ≤ 2 ^ 53) : fixnum (doubleOfInt v) = some v := by
  obtain ⟨E, F, hE, hF, henc, h1, h2, h3⟩ := fields_doubleOfInt (v := v) (by omega)
  obtain ⟨hi, ht⟩ := trunc_exact hv
  have hn := isNumber_doubleOfInt (v := v) (by omega)
  unfold fixnum isfixnum
  have hE' : E ≠ 2047 := by omega
  simp only [hn, hi, h1, h3, ht, Bool.and_self, Bool.true_and, bne_iff_ne, ne_eq, hE', not_false_eq_true, if_true]
  have hval : (if decide (v < 0) = true then -(v.natAbs : Int) else (v.natAbs : Int)) = v := by
    by_cases h : v < 0 <;> simp [h] <;> omega
  rw [hval]
  have hr : inInt64 v = true := by simp [inInt64]; omega
  simp [hr]

end Cora
