import Verif.Lemmas.Num2
/-
Property theorems C01 (tagging), C02 (integers), C03 (division).
-/
namespace Cora
open Spec

/-! ## C01 -/

/-- C01 (a). Packing a 48-bit payload with a tag succeeds, and tag and payload are read back. -/
theorem C01_pack_unpack (p : Obj) (hp : p.toNat < 2 ^ 48) (t : BitVec 8) (ht : t.toNat < 8) :
    ∃ o, makeNaNPtr p t = some o ∧ ptrOf o = p ∧ (tagOf o).toNat = t.toNat ∧ isobj o = true := by
  have hp' : p >>> 48 = 0 := by
    apply BitVec.eq_of_toNat_eq
    rw [BitVec.toNat_ushiftRight, Nat.shiftRight_eq_div_pow]
    have : p.toNat / 2 ^ 48 = 0 := Nat.div_eq_of_lt hp
    rw [this]; rfl
  refine ⟨packed p t, makeNaNPtr_eq hp' t, ptrOf_packed hp' t, ?_, isobj_packed p t⟩
  rw [tagOf_packed hp' t ht]
  simp
  omega

/-- C01 (b). A payload that does not fit 48 bits is refused (the assertion fires). -/
theorem C01_pack_rejects_wide (p : Obj) (hp : 2 ^ 48 ≤ p.toNat) (t : BitVec 8) : makeNaNPtr p t = none := by
  have : ¬ (p >>> 48 = 0#64) := by
    intro h
    have := congrArg BitVec.toNat h
    rw [BitVec.toNat_ushiftRight, Nat.shiftRight_eq_div_pow] at this
    have h2 : 1 ≤ p.toNat / 2 ^ 48 := (Nat.le_div_iff_mul_le (by decide)).mpr (by omega)
    simp only [BitVec.ofNat_eq_ofNat, BitVec.toNat_ofNat] at this
    omega
  simp [makeNaNPtr, this]

/-- C01 (c). Each kind predicate answers `true` on a packed value exactly for its own tag, and
`number?` answers `false`. -/
theorem C01_kinds_exclusive (p : Obj) (hp : p.toNat < 2 ^ 48) (t : BitVec 8) (ht : t.toNat < 8) (o : Obj)
    (ho : makeNaNPtr p t = some o) :
    (iscons o = true ↔ t = TAG_CONS) ∧ (isBytes o = true ↔ t = TAG_BYTES) ∧
    (iscobj o = true ↔ t = TAG_COBJ) ∧ isNumber o = false ∧ (isScmHead o = true ↔ 4 ≤ t.toNat) ∧
    (∀ hd, issymbol hd o = true ↔ t = TAG_SYMBOL ∨ (t = TAG_PTR ∧ hd p = true)) := by
  have hp' : p >>> 48 = 0 := by
    unfold makeNaNPtr at ho
    split at ho
    · assumption
    · simp at ho
  rw [makeNaNPtr_eq hp' t] at ho
  obtain rfl := Option.some.inj ho
  have cons := hasTag_packed hp' t TAG_CONS ht (by decide)
  have bytes := hasTag_packed hp' t TAG_BYTES ht (by decide)
  have cobj := hasTag_packed hp' t TAG_COBJ ht (by decide)
  have htag := tagOf_packed hp' t ht
  have hptr := ptrOf_packed hp' t
  have hobj := isobj_packed p t
  have hinj : ∀ u : BitVec 8, u.toNat < 8 → ((t.setWidth 64 == u.setWidth 64) = true ↔ t = u) := by
    intro u hu
    rw [beq_iff_eq]
    constructor
    · intro h
      apply BitVec.eq_of_toNat_eq
      have := congrArg BitVec.toNat h
      simp at this
      omega
    · rintro rfl; rfl
  refine ⟨?_, ?_, ?_, ?_, ?_, ?_⟩
  · simp [iscons, cons]
  · simp [isBytes, bytes]
  · simp [iscobj, cobj]
  · simp [isNumber_eq_not, hobj]
  · unfold isScmHead
    rw [hobj, htag]
    simp
    omega
  · intro hd
    unfold issymbol
    rw [hobj, htag, hptr, Bool.true_and, Bool.or_eq_true, Bool.and_eq_true, hinj _ (by decide), hinj _ (by decide)]

/-- C01 (d). Every 64-bit integer the runtime stores is recognised as a number and as nothing else. -/
theorem C01_integers_are_numbers (v : Int) (hlo : -(2:Int) ^ 63 ≤ v) (hhi : v < 2 ^ 63) :
    ∃ o, makeNumber v = some o ∧ isNumber o = true ∧ isobj o = false ∧ iscons o = false ∧ isBytes o = false ∧
      iscobj o = false ∧ isScmHead o = false ∧ isboolean o = false ∧ o ≠ Nil ∧ o ≠ Undef := by
  have hr : inInt64 v = true := by simp [inInt64]; omega
  have hn := isNumber_doubleOfInt (inInt64_natAbs hr)
  have ho : isobj (doubleOfInt v) = false := by rw [isNumber_eq_not] at hn; simpa using hn
  have hk : ∀ u, u.toNat < 8 → hasTag u (doubleOfInt v) = false := by
    intro u hu
    apply Bool.eq_false_iff.mpr
    intro h
    unfold hasTag at h
    rw [beq_iff_eq] at h
    have : isobj (doubleOfInt v) = true := by
      rw [isobj_iff]
      intro i h1 h2
      have hb := congrArg (fun b : BitVec 64 => b.getLsbD i) h
      simp only [BitVec.getLsbD_and, BitVec.getLsbD_or, OBJ_MASK_getLsbD, MASK_getLsbD] at hb
      have h3 : 48 ≤ i := by omega
      simp only [h1, h2, h3, decide_true, Bool.and_self, Bool.and_true, Bool.or_true] at hb
      exact hb
    rw [ho] at this; simp at this
  have hne : ∀ w, isobj w = true → doubleOfInt v ≠ w := by
    intro w hw he; rw [he, hw] at ho; simp at ho
  refine ⟨doubleOfInt v, makeNumber_eq hr, hn, ho, hk _ (by decide), hk _ (by decide), hk _ (by decide), ?_, ?_,
    hne _ (by decide), hne _ (by decide)⟩
  · simp [isScmHead, ho]
  · have h1 : (doubleOfInt v == True') = false := beq_eq_false_iff_ne.mpr (hne _ (by decide))
    have h2 : (doubleOfInt v == False') = false := beq_eq_false_iff_ne.mpr (hne _ (by decide))
    simp [isboolean, h1, h2]

example : (0x7f1234567890#64).toNat < 2 ^ 48 ∧ TAG_CONS.toNat < 8 ∧
    makeNaNPtr 0x7f1234567890#64 TAG_CONS = some 0x7FFD7f1234567890#64 := by decide
example : makeNumber (-3) = some 0xC008000000000000#64 := by decide +kernel

/-- C01 (e). The four immediates are pairwise distinct boxed values. -/
theorem C01_immediates_distinct :
    Undef ≠ Nil ∧ Undef ≠ True' ∧ Undef ≠ False' ∧ Nil ≠ True' ∧ Nil ≠ False' ∧ True' ≠ False' ∧
    (isobj Undef && isobj Nil && isobj True' && isobj False') = true ∧
    (tagOf Undef).toNat = 1 ∧ (tagOf Nil).toNat = 1 ∧ (tagOf True').toNat = 1 ∧ (tagOf False').toNat = 1 := by
  refine ⟨?_, ?_, ?_, ?_, ?_, ?_, ?_, ?_, ?_, ?_, ?_⟩ <;> decide

/-- C01 (f). No word is of two kinds: pairs, strings, C objects, symbols and numbers exclude each other
(`headIsSymbol` is what the header of a pointer object says). -/
theorem C01_no_two_kinds (hd : Obj → Bool) (o : Obj) :
    (if iscons o then 1 else 0) + (if isBytes o then 1 else 0) + (if iscobj o then 1 else 0) +
    (if issymbol hd o then 1 else 0) + (if isNumber o then 1 else 0) + (if tagOf o = 1 ∧ isobj o then 1 else 0) ≤ 1 := by
  have hm : ∀ t : BitVec 8, t.toNat < 8 → hasTag t o = true → isobj o = true ∧ tagOf o = t.setWidth 64 := by
    intro t ht h
    unfold hasTag at h
    rw [beq_iff_eq] at h
    have h1 : ∀ t : BitVec 8, t.toNat < 8 →
        (((t.setWidth 64 <<< 48) ||| OBJ_MASK) &&& OBJ_MASK = OBJ_MASK) ∧
        ((((t.setWidth 64 <<< 48) ||| OBJ_MASK) >>> 48) &&& 7#64) = t.setWidth 64 := by decide +kernel
    have e1 : o &&& OBJ_MASK = (o &&& MASK) &&& OBJ_MASK := by
      rw [BitVec.and_assoc]; congr 1
    have e2 : (o >>> 48) &&& 7#64 = ((o &&& MASK) >>> 48) &&& 7#64 := by
      rw [BitVec.ushiftRight_and_distrib, BitVec.and_assoc]; congr 1
    constructor
    · unfold isobj; rw [e1, h, (h1 t ht).1]; simp
    · unfold tagOf; rw [e2, h, (h1 t ht).2]
  have hnum : isNumber o = !isobj o := isNumber_eq_not o
  have c1 : iscons o = true → isobj o = true ∧ tagOf o = 5#64 := hm TAG_CONS (by decide)
  have c2 : isBytes o = true → isobj o = true ∧ tagOf o = 4#64 := hm TAG_BYTES (by decide)
  have c3 : iscobj o = true → isobj o = true ∧ tagOf o = 2#64 := hm TAG_COBJ (by decide)
  have c4 : issymbol hd o = true → isobj o = true ∧ (tagOf o = 3#64 ∨ tagOf o = 7#64) := by
    unfold issymbol
    simp only [Bool.and_eq_true, Bool.or_eq_true, beq_iff_eq]
    rintro ⟨a, b | ⟨b, -⟩⟩
    · exact ⟨a, .inl b⟩
    · exact ⟨a, .inr b⟩
  have n12 : (4#64) ≠ 5#64 := by decide
  have n13 : (2#64) ≠ 5#64 := by decide
  have n14 : (3#64) ≠ 5#64 := by decide
  have n15 : (7#64) ≠ 5#64 := by decide
  by_cases h1 : iscons o = true <;> by_cases h2 : isBytes o = true <;> by_cases h3 : iscobj o = true <;>
    by_cases h4 : issymbol hd o = true <;> by_cases h5 : isobj o = true <;> by_cases h6 : tagOf o = 1#64 <;>
    simp_all

/-- C01 (g). `not` exchanges the two booleans and refuses every other value. -/
theorem C01_not (o : Obj) :
    primNot True' = some False' ∧ primNot False' = some True' ∧ (isboolean o = false → primNot o = none) := by
  refine ⟨by decide, by decide, ?_⟩
  unfold isboolean primNot
  simp only [Bool.or_eq_false_iff, beq_eq_false_iff_ne]
  rintro ⟨a, b⟩
  rw [if_neg a, if_neg b]

/-! ## C02 -/

/-- C02 (a). An integer of magnitude at most 2^53 is stored as the double of exactly that value and
read back unchanged. -/
theorem C02_storage_exact (n : Int) (h : n.natAbs ≤ 2 ^ 53) :
    ∃ o, makeNumber n = some o ∧ fixnum o = some n ∧ IsDoubleOf o n := by
  have hr : inInt64 n = true := by simp [inInt64]; omega
  have hf := fixnum_doubleOfInt h
  exact ⟨doubleOfInt n, makeNumber_eq hr, hf, fixnum_isDoubleOf hf⟩

/-- C02 (b). Distinct integers in the range are distinct values. -/
theorem C02_storage_injective (a b : Int) (ha : a.natAbs ≤ 2 ^ 53) (hb : b.natAbs ≤ 2 ^ 53)
    (h : makeNumber a = makeNumber b) : a = b := by
  obtain ⟨x, hx, hfx, _⟩ := C02_storage_exact a ha
  obtain ⟨y, hy, hfy, _⟩ := C02_storage_exact b hb
  rw [hx, hy] at h
  obtain rfl := Option.some.inj h
  rw [hfx] at hfy
  exact Option.some.inj hfy

/-- Reading an integer out of any value is faithful: the value really is that double. -/
theorem C02_read_faithful (o : Obj) (n : Int) (h : fixnum o = some n) : IsDoubleOf o n := fixnum_isDoubleOf h

/-- C02 (c). Addition, subtraction and multiplication are exact when the result is in range. -/
theorem C02_arith_exact (x y : Obj) (a b : Int) (hx : fixnum x = some a) (hy : fixnum y = some b) :
    ((a + b).natAbs ≤ 2 ^ 53 → ∃ o, PRIM_ADD x y = some o ∧ fixnum o = some (a + b) ∧ IsDoubleOf o (a + b)) ∧
    ((a - b).natAbs ≤ 2 ^ 53 → ∃ o, PRIM_SUB x y = some o ∧ fixnum o = some (a - b) ∧ IsDoubleOf o (a - b)) ∧
    ((a * b).natAbs ≤ 2 ^ 53 → ∃ o, PRIM_MUL x y = some o ∧ fixnum o = some (a * b) ∧ IsDoubleOf o (a * b)) := by
  have key : ∀ r : Int, r.natAbs ≤ 2 ^ 53 → ∃ o, (int64 r).bind makeNumber = some o ∧ fixnum o = some r ∧ IsDoubleOf o r := by
    intro r hr
    obtain ⟨o, h1, h2, h3⟩ := C02_storage_exact r hr
    have hi : inInt64 r = true := by simp [inInt64]; omega
    exact ⟨o, by simp [int64, hi, h1], h2, h3⟩
  refine ⟨fun h => ?_, fun h => ?_, fun h => ?_⟩
  · obtain ⟨o, h1, h2, h3⟩ := key _ h
    exact ⟨o, by simpa [PRIM_ADD, hx, hy] using h1, h2, h3⟩
  · obtain ⟨o, h1, h2, h3⟩ := key _ h
    exact ⟨o, by simpa [PRIM_SUB, hx, hy] using h1, h2, h3⟩
  · obtain ⟨o, h1, h2, h3⟩ := key _ h
    exact ⟨o, by simpa [PRIM_MUL, hx, hy] using h1, h2, h3⟩

/-- C02 (c), outside the exact range: the result is stored as any 64-bit integer is (the nearest double, `C02_storage_nearest`), and a
result that is no 64-bit integer is not defined. -/
theorem C02_arith_beyond (x y : Obj) (a b : Int) (hx : fixnum x = some a) (hy : fixnum y = some b) :
    (PRIM_ADD x y = if -(2:Int) ^ 63 ≤ a + b ∧ a + b < 2 ^ 63 then makeNumber (a + b) else none) ∧
    (PRIM_SUB x y = if -(2:Int) ^ 63 ≤ a - b ∧ a - b < 2 ^ 63 then makeNumber (a - b) else none) ∧
    (PRIM_MUL x y = if -(2:Int) ^ 63 ≤ a * b ∧ a * b < 2 ^ 63 then makeNumber (a * b) else none) := by
  have key : ∀ r : Int, (int64 r).bind makeNumber = if -(2:Int) ^ 63 ≤ r ∧ r < 2 ^ 63 then makeNumber r else none := by
    intro r
    simp only [int64, inInt64, Bool.and_eq_true, decide_eq_true_eq]
    split <;> rfl
  exact ⟨by rw [← key]; simp [PRIM_ADD, hx, hy], by rw [← key]; simp [PRIM_SUB, hx, hy], by rw [← key]; simp [PRIM_MUL, hx, hy]⟩

/-- `2^62` plus itself is no 64-bit integer -/
example : fixnum 0x43D0000000000000#64 = some (2 ^ 62) ∧ PRIM_ADD 0x43D0000000000000#64 0x43D0000000000000#64 = none := by
  decide +kernel

/-- C02 (d). `<` and `>` agree with the integer order. -/
theorem C02_order (x y : Obj) (a b : Int) (hx : fixnum x = some a) (hy : fixnum y = some b) :
    PRIM_LT x y = some (if a < b then True' else False') ∧ PRIM_GT x y = some (if b < a then True' else False') := by
  simp [PRIM_LT, PRIM_GT, hx, hy]

/-- C02 (e). For every 64-bit integer, in range or not, the stored double is a nearest one: no finite
double is strictly closer. -/
theorem C02_storage_nearest (v : Int) (hlo : -(2:Int) ^ 63 ≤ v) (hhi : v < 2 ^ 63) :
    ∃ o y, makeNumber v = some o ∧ scaledValue o = some y ∧
      ∀ (d : BitVec 64) (x : Int), scaledValue d = some x →
        (y - scaledInt v).natAbs ≤ (x - scaledInt v).natAbs := by
  have hr : inInt64 v = true := by simp [inInt64]; omega
  have hv := inInt64_natAbs hr
  obtain ⟨M, hM, hcase⟩ := mag_encode hv
  have hsv := scaledInt_cases v
  refine ⟨doubleOfInt v, _, makeNumber_eq hr, hM, ?_⟩
  intro d x hx
  have hB : 0 < (2:Nat) ^ 1074 := Nat.two_pow_pos _
  generalize hBd : (2:Nat) ^ 1074 = B at *
  rw [hsv]
  rcases hcase with hex | ⟨he, Q, hQ, hMQ, h1, h2⟩
  · subst hex
    have : ((if v < 0 then -((v.natAbs * B : Nat) : Int) else ((v.natAbs * B : Nat) : Int)) -
        if v < 0 then -((v.natAbs * B : Nat) : Int) else ((v.natAbs * B : Nat) : Int)) = 0 := Int.sub_self _
    rw [this]; simp
  · have h0 : v.natAbs ≠ 0 := by intro h; rw [h] at he; simp at he
    generalize hS : 2 ^ (Nat.log2 v.natAbs - 52) = S at *
    have hm : 2 ^ 52 * S ≤ v.natAbs := by
      rw [← hS, ← Nat.pow_add]
      have e : 52 + (Nat.log2 v.natAbs - 52) = Nat.log2 v.natAbs := by omega
      rw [e]; exact Nat.log2_self_le h0
    have hxabs := scaledValue_abs hx
    have hF : fracField d < 2 ^ 52 := Nat.mod_lt _ (by decide)
    have hSB : S * B = 2 ^ (Nat.log2 v.natAbs - 52 + 1074) := by rw [pow_split, hS, hBd]
    have hxm : x.natAbs ≤ 2 ^ 52 * (S * B) ∨ ∃ c, x.natAbs = c * (S * B) := by
      by_cases hbig : x.natAbs ≤ 2 ^ 52 * (S * B)
      · exact Or.inl hbig
      · right
        have hSB0 : 0 < S * B := Nat.mul_pos (by rw [← hS]; exact Nat.two_pow_pos _) hB
        have hE : expField d ≠ 0 := by
          intro hE
          rw [if_pos hE] at hxabs
          apply hbig
          have : 2 ^ 52 ≤ 2 ^ 52 * (S * B) := Nat.le_mul_of_pos_right _ hSB0
          omega
        rw [if_neg hE] at hxabs
        rw [hxabs, hSB]
        rw [hxabs, hSB] at hbig
        exact mag_multiple hF hE (Nat.lt_of_not_le hbig)
    have core := nearest_core hB hQ hm h1 h2 hxm
    subst hMQ
    generalize Q * S * B = T at *
    generalize v.natAbs * B = W at *
    clear hxm hxabs hSB hm h1 h2 hsv hM hF hx hS hBd hB hQ he
    by_cases h : v < 0
    · simp only [h, if_true]
      by_cases hxs : x ≤ 0 <;> omega
    · simp only [h, if_false]
      by_cases hxs : 0 ≤ x <;> omega

example : (2 ^ 53 : Int).natAbs ≤ 2 ^ 53 ∧ makeNumber (2 ^ 53) = some 0x4340000000000000#64 := by decide +kernel
example : fixnum 0xC008000000000000#64 = some (-3) ∧ fixnum 0x401C000000000000#64 = some 7 ∧
    PRIM_MUL 0xC008000000000000#64 0x401C000000000000#64 = some 0xC035000000000000#64 ∧
    fixnum 0xC035000000000000#64 = some (-21) := by decide +kernel

/-- The bound 2^53 in C02 is sharp: 2^53 and 2^53+1 are stored as the same value. -/
theorem C02_beyond_range_collides : makeNumber (2 ^ 53 + 1) = makeNumber (2 ^ 53) := by decide +kernel

/-- A stored 64-bit integer near the top cannot even be read back: the conversion is undefined. -/
theorem C02_max_int64_unreadable : ∃ o, makeNumber (2 ^ 63 - 1) = some o ∧ fixnum o = none := by
  refine ⟨0x43E0000000000000#64, ?_, ?_⟩ <;> decide +kernel

/-! ## C03 -/

/-- C03 is false of the code: `(/ 6 2)` is `1`, because the bit patterns are divided. -/
theorem C03_division_wrong :
    ∃ x y o : Obj, makeNumber 6 = some x ∧ makeNumber 2 = some y ∧ primDiv x y = some o ∧ fixnum o = some 1 :=
  ⟨0x4018000000000000#64, 0x4000000000000000#64, 0x3FF0000000000000#64, by decide +kernel⟩

/-- C03, what remains true: for a positive number divided by itself the quotient is 1, and dividing by
zero is never answered. -/
theorem C03_division_partial (n : Int) (h0 : 0 < n) (h : n ≤ 2 ^ 53) :
    ∃ x o, makeNumber n = some x ∧ primDiv x x = some o ∧ fixnum o = some (n / n) ∧ primDiv x 0 = none := by
  obtain ⟨x, hx, hf, _⟩ := C02_storage_exact n (by omega)
  have hfix : isfixnum x = true := by
    unfold fixnum at hf
    split at hf
    · rename_i hc; simp at hc; exact hc.1
    · simp at hf
  have hx0 : x ≠ 0 := by
    rintro rfl
    have : fixnum (0 : BitVec 64) = some 0 := by decide +kernel
    rw [this] at hf
    have := Option.some.inj hf
    omega
  have hdiv : (x / x).toInt = 1 := by
    have hpos : 0 < x.toNat := by
      apply Nat.pos_of_ne_zero
      intro h; apply hx0; exact BitVec.eq_of_toNat_eq (by simpa using h)
    have : x / x = 1#64 := by
      apply BitVec.eq_of_toNat_eq
      rw [BitVec.toNat_udiv, Nat.div_self hpos]; rfl
    rw [this]; rfl
  have hnn : n / n = 1 := Int.ediv_self (by omega)
  refine ⟨x, doubleOfInt 1, hx, ?_, ?_, ?_⟩
  · unfold primDiv
    rw [hfix, hdiv]
    have : ¬ x = 0#64 := hx0
    simp [this, makeNumber_eq (v := 1) (by decide)]
  · rw [hnn]; exact fixnum_doubleOfInt (by decide)
  · simp [primDiv]

end Cora
