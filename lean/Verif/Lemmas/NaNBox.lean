import Verif.Model.NaNBox
namespace Cora

theorem OBJ_MASK_getLsbD (i : Nat) : OBJ_MASK.getLsbD i = (decide (51 ≤ i) && decide (i ≤ 62)) := by
  by_cases h : i < 64
  · have : ∀ i : Fin 64, OBJ_MASK.getLsbD i = (decide (51 ≤ i.val) && decide (i.val ≤ 62)) := by decide +kernel
    exact this ⟨i, h⟩
  · have h1 : ¬ (i ≤ 62) := by omega
    simp [BitVec.getLsbD_of_ge _ _ (Nat.le_of_not_lt h), h1]

theorem isobj_iff (x : Obj) : isobj x = true ↔ ∀ i, 51 ≤ i → i ≤ 62 → x.getLsbD i = true := by
  unfold isobj
  rw [beq_iff_eq]
  constructor
  · intro h i h1 h2
    have := congrArg (fun b => b.getLsbD i) h
    simp [OBJ_MASK_getLsbD, h1, h2] at this
    exact this
  · intro h
    apply BitVec.eq_of_getLsbD_eq
    intro i hi
    rw [BitVec.getLsbD_and, OBJ_MASK_getLsbD]
    by_cases h1 : 51 ≤ i
    · by_cases h2 : i ≤ 62
      · simp [h1, h2, h i h1 h2]
      · simp [h2]
    · simp [h1]

theorem isobj_iff_div (x : Obj) : isobj x = true ↔ x.toNat / 2 ^ 51 % 2 ^ 12 = 2 ^ 12 - 1 := by
  rw [isobj_iff]
  constructor
  · intro h
    apply Nat.eq_of_testBit_eq
    intro i
    rw [Nat.testBit_mod_two_pow, Nat.testBit_div_two_pow, Nat.testBit_two_pow_sub_one]
    by_cases hi : i < 12
    · have := h (i + 51) (by omega) (by omega)
      simp [BitVec.getLsbD] at this
      simp [hi, this]
    · simp [hi]
  · intro h i h1 h2
    have := congrArg (fun n => n.testBit (i - 51)) h
    rw [Nat.testBit_mod_two_pow, Nat.testBit_div_two_pow, Nat.testBit_two_pow_sub_one] at this
    have h3 : i - 51 < 12 := by omega
    have h4 : i - 51 + 51 = i := by omega
    simp only [h3, h4, decide_true, Bool.true_and] at this
    exact this

theorem isNumber_eq_not (x : Obj) : isNumber x = !isobj x := rfl

theorem shift48_zero {p : Obj} (h : p >>> 48 = 0) (i : Nat) (hi : 48 ≤ i) : p.getLsbD i = false := by
  have := congrArg (fun b : BitVec 64 => b.getLsbD (i - 48)) h
  simp only [BitVec.getLsbD_ushiftRight] at this
  have e : 48 + (i - 48) = i := by omega
  rw [e] at this
  simpa using this

/-- the packed word, as a plain expression -/
def packed (p : Obj) (t : BitVec 8) : Obj := ((t.setWidth 64) <<< 48) ||| OBJ_MASK ||| p

theorem packed_getLsbD (p : Obj) (t : BitVec 8) (i : Nat) :
    (packed p t).getLsbD i =
      ((decide (i < 64) && (!decide (i < 48) && t.getLsbD (i - 48))) || (decide (51 ≤ i) && decide (i ≤ 62)) || p.getLsbD i) := by
  unfold packed
  rw [BitVec.getLsbD_or, BitVec.getLsbD_or, OBJ_MASK_getLsbD]
  simp only [BitVec.getLsbD_shiftLeft, BitVec.getLsbD_setWidth]
  by_cases h : i < 64 <;> by_cases h2 : i - 48 < 64 <;> simp [h, h2]
  omega

theorem isobj_packed (p : Obj) (t : BitVec 8) : isobj (packed p t) = true := by
  rw [isobj_iff]
  intro i h1 h2
  rw [packed_getLsbD]; simp [h1, h2]

theorem tagOf_packed {p : Obj} (hp : p >>> 48 = 0) (t : BitVec 8) (ht : t.toNat < 8) :
    tagOf (packed p t) = t.setWidth 64 := by
  have ht' : ∀ i, 3 ≤ i → t.getLsbD i = false := by
    intro i hi
    exact Nat.testBit_lt_two_pow (Nat.lt_of_lt_of_le ht (by
      calc (8:Nat) = 2 ^ 3 := rfl
        _ ≤ 2 ^ i := Nat.pow_le_pow_right (by decide) hi))
  have h7 : ∀ i, (7#64).getLsbD i = decide (i < 3) := by
    intro i
    by_cases h : i < 64
    · have : ∀ i : Fin 64, (7#64).getLsbD i = decide (i.val < 3) := by decide +kernel
      exact this ⟨i, h⟩
    · rw [BitVec.getLsbD_of_ge _ _ (Nat.le_of_not_lt h)]
      have : ¬ i < 3 := by omega
      simp [this]
  apply BitVec.eq_of_getLsbD_eq
  intro i hi
  unfold tagOf
  rw [BitVec.getLsbD_and, BitVec.getLsbD_ushiftRight, packed_getLsbD, h7, BitVec.getLsbD_setWidth]
  have hpi : p.getLsbD (48 + i) = false := shift48_zero hp _ (by omega)
  rw [hpi]
  by_cases h3 : i < 3
  · have e : 48 + i - 48 = i := by omega
    have h4 : 48 + i < 64 := by omega
    have h5 : ¬ (48 + i < 48) := by omega
    have h6 : ¬ (51 ≤ 48 + i) := by omega
    simp [h3, e, h4, h5, h6, hi]
  · simp [h3, ht' i (by omega)]

theorem ptrOf_packed {p : Obj} (hp : p >>> 48 = 0) (t : BitVec 8) : ptrOf (packed p t) = p := by
  have hm : ∀ i, ((1#64 <<< 48) - 1#64).getLsbD i = decide (i < 48) := by
    intro i
    by_cases h : i < 64
    · have : ∀ i : Fin 64, ((1#64 <<< 48) - 1#64).getLsbD i = decide (i.val < 48) := by decide +kernel
      exact this ⟨i, h⟩
    · rw [BitVec.getLsbD_of_ge _ _ (Nat.le_of_not_lt h)]
      have : ¬ i < 48 := by omega
      simp [this]
  apply BitVec.eq_of_getLsbD_eq
  intro i hi
  unfold ptrOf
  rw [BitVec.getLsbD_and, packed_getLsbD, hm]
  by_cases h : i < 48
  · have : ¬ 51 ≤ i := by omega
    simp [h, this]
  · simp [h, shift48_zero hp i (by omega)]

theorem makeNaNPtr_eq {p : Obj} (hp : p >>> 48 = 0) (t : BitVec 8) : makeNaNPtr p t = some (packed p t) := by
  simp [makeNaNPtr, hp, packed]

theorem MASK_getLsbD (i : Nat) : MASK.getLsbD i = (decide (48 ≤ i) && decide (i ≤ 62)) := by
  by_cases h : i < 64
  · have : ∀ i : Fin 64, MASK.getLsbD i = (decide (48 ≤ i.val) && decide (i.val ≤ 62)) := by decide +kernel
    exact this ⟨i, h⟩
  · have h1 : ¬ (i ≤ 62) := by omega
    simp [BitVec.getLsbD_of_ge _ _ (Nat.le_of_not_lt h), h1]

theorem hasTag_packed {p : Obj} (hp : p >>> 48 = 0) (t u : BitVec 8) (ht : t.toNat < 8) (hu : u.toNat < 8) :
    hasTag u (packed p t) = (t == u) := by
  have hb : ∀ w : BitVec 8, w.toNat < 8 → ∀ i, 3 ≤ i → w.getLsbD i = false := by
    intro w hw i hi
    exact Nat.testBit_lt_two_pow (Nat.lt_of_lt_of_le hw (by
      calc (8:Nat) = 2 ^ 3 := rfl
        _ ≤ 2 ^ i := Nat.pow_le_pow_right (by decide) hi))
  have key : ∀ i, (packed p t &&& MASK).getLsbD i = (packed 0 t).getLsbD i := by
    intro i
    rw [BitVec.getLsbD_and, packed_getLsbD, packed_getLsbD, MASK_getLsbD]
    by_cases h48 : 48 ≤ i
    · have h48' : ¬ i < 48 := by omega
      by_cases h62 : i ≤ 62
      · simp [h48, h62, shift48_zero hp i h48]
      · simp only [h62, hb t ht (i - 48) (by omega), shift48_zero hp i h48]; simp
    · have h1 : i < 48 := by omega
      have h2 : ¬ 51 ≤ i := by omega
      simp [h48, h1, h2]
  have e : packed p t &&& MASK = packed 0 t := BitVec.eq_of_getLsbD_eq (fun i _ => key i)
  have e2 : (((u.setWidth 64) <<< 48) ||| OBJ_MASK) = packed 0 u := by simp [packed]
  unfold hasTag
  rw [e, e2]
  by_cases htu : t = u
  · subst htu; simp
  · have : packed 0 t ≠ packed 0 u := by
      intro hh
      apply htu
      have h1 := tagOf_packed (p := 0) (by decide) t ht
      have h2 := tagOf_packed (p := 0) (by decide) u hu
      rw [hh, h2] at h1
      have := congrArg BitVec.toNat h1
      simp at this
      apply BitVec.eq_of_toNat_eq
      omega
    rw [beq_eq_false_iff_ne.mpr this, beq_eq_false_iff_ne.mpr htu]

end Cora
