import Verif.Lemmas.Num2
import Verif.Model.Os
import Verif.Model.Eq
import Verif.Props.Values
import Verif.Props.Os
/-
C100: how a command ended.
-/
open Spec
namespace Cora.Os

theorem int32_small (s : BitVec 32) : s.toInt.natAbs ≤ 2 ^ 53 := by
  have h1 := BitVec.toInt_lt (x := s)
  have h2 := BitVec.le_toInt (x := s)
  omega

/-- numbers are compared as words -/
theorem eq_number (mem : Mem) (depth : Nat) (o v : Obj) (hv : isNumber v = true) :
    eqObj mem (depth + 1) o v = some (decide (o = v)) := by
  have hc : iscons v = false ∧ isBytes v = false := by
    have hm : ∀ t : BitVec 8, hasTag t v = true → isNumber v = false := by
      intro t h
      unfold hasTag at h
      rw [beq_iff_eq] at h
      unfold isNumber
      have e : v &&& OBJ_MASK = OBJ_MASK := by
        have h2 : v &&& OBJ_MASK = (v &&& MASK) &&& OBJ_MASK := by
          rw [BitVec.and_assoc]; congr 1
        rw [h2, h]
        apply BitVec.eq_of_getLsbD_eq
        intro i hi
        simp only [BitVec.getLsbD_and, BitVec.getLsbD_or]
        cases BitVec.getLsbD OBJ_MASK i <;> simp
      simp [e]
    refine ⟨?_, ?_⟩
    · cases h : iscons v with
      | false => rfl
      | true => rw [hm _ h] at hv; cases hv
    · cases h : isBytes v with
      | false => rfl
      | true => rw [hm _ h] at hv; cases hv
  unfold eqObj
  by_cases h : o = v
  · simp [h]
  · simp [h, hc.1, hc.2]

/-- `exec` returns the number `system` reported, whatever it is, and it is equal to this number and to no other -/
theorem C100_exec (status : BitVec 32) :
    ∃ o, execResult status = some o ∧ IsDoubleOf o status.toInt ∧ fixnum o = some status.toInt ∧
      ∀ mem depth n v, n.natAbs ≤ 2 ^ 53 → makeNumber n = some v →
        eqObj mem (depth + 1) o v = some (decide (status.toInt = n)) := by
  obtain ⟨o, h1, h2, h3⟩ := C02_storage_exact status.toInt (int32_small status)
  refine ⟨o, h1, h3, h2, ?_⟩
  intro mem depth n v hn hv
  have hr : isNumber v = true := by
    obtain ⟨w, hw, hw', _⟩ := C01_integers_are_numbers n (by omega) (by omega)
    rw [hv] at hw; cases hw; exact hw'
  rw [eq_number mem depth o v hr]
  congr 1
  rw [decide_eq_decide]
  constructor
  · rintro rfl
    exact C02_storage_injective _ _ (int32_small status) hn (h1.trans hv.symm)
  · intro e
    rw [e, hv] at h1
    exact (Option.some.inj h1).symm

/-- what `popen` returned stands for the stream it was given: `pclose` waits for the same command -/
theorem C100_stream (p : Obj) (h : p.toNat < 2 ^ 48) (ha : p &&& 7 = 0) :
    ∃ o, popenResult p = some o ∧ iscobj o = true ∧ pcloseStream o = some p := by
  obtain ⟨o, h1, h2, h3, h4⟩ := C01_pack_unpack p h TAG_COBJ (by decide)
  refine ⟨o, ?_, ((C01_kinds_exclusive p h TAG_COBJ (by decide) o h1).2.2.1).mpr rfl, ?_⟩
  · unfold popenResult Json.makeCObj
    rw [if_pos (by exact ha), h1]
  · unfold pcloseStream Json.mustCObj
    rw [if_pos (by apply BitVec.eq_of_toNat_eq; rw [h3]; rfl), h2]

/-- the mode reaches the system as it was written, when it has no NUL and fewer than 255 characters -/
theorem C100_mode (name : Bytes) (h : name.length < 255) (h0 : ∀ c ∈ name, c ≠ 0) : popenMode name = some name := by
  unfold popenMode
  rw [if_pos (by omega), takeWhile_all h0]

/-- a command that ended well is told from the others: the result of `pclose` equals 0 exactly when the status is 0 -/
theorem C100_pclose_partial (status : BitVec 32) (mem : Mem) (depth : Nat) (zero : Obj) (hz : makeNumber 0 = some zero) :
    eqObj mem (depth + 1) (pcloseResult status) zero = some (decide (status.toInt = 0)) := by
  have h0 : makeNumber 0 = some (0 : Obj) := by decide
  rw [h0] at hz; cases hz
  rw [eq_number mem depth _ _ (by decide)]
  congr 1
  rw [decide_eq_decide]
  unfold pcloseResult
  constructor
  · intro h
    have h2 := congrArg BitVec.toInt h
    rw [BitVec.toInt_signExtend_of_le (by decide)] at h2
    simpa using h2
  · intro h
    apply BitVec.eq_of_toInt_eq
    rw [BitVec.toInt_signExtend_of_le (by decide), h]; rfl

theorem result_nat (status : BitVec 32) (h : 0 < status.toInt) :
    (pcloseResult status).toNat = status.toInt.toNat ∧ status.toInt.toNat < 2 ^ 31 := by
  have h1 := BitVec.toInt_lt (x := status)
  have h2 : (pcloseResult status).toInt = status.toInt := by
    unfold pcloseResult; rw [BitVec.toInt_signExtend_of_le (by decide)]
  have h3 := BitVec.toInt_eq_toNat_cond (pcloseResult status)
  have h4 := (pcloseResult status).isLt
  split at h3 <;> omega

/-- a command that ended with any other status: what `pclose` returns is called a number, but it is no integer — comparing it
by size or calculating with it stops the program — and it equals no integer, not even the status -/
theorem C100_pclose_wrong (status : BitVec 32) (h : 0 < status.toInt) :
    isNumber (pcloseResult status) = true ∧ fixnum (pcloseResult status) = none ∧
      (∀ x, PRIM_GT (pcloseResult status) x = none ∧ PRIM_ADD (pcloseResult status) x = none) ∧
      (∀ mem depth n v, n.natAbs ≤ 2 ^ 53 → makeNumber n = some v →
        eqObj mem (depth + 1) (pcloseResult status) v = some false) := by
  obtain ⟨hn, hl⟩ := result_nat status h
  have hp : 0 < status.toInt.toNat := by omega
  have hi : isIntegral (pcloseResult status) = false := by
    have e1 : expField (pcloseResult status) = 0 := by unfold expField; rw [hn]; omega
    have e2 : fracField (pcloseResult status) ≠ 0 := by unfold fracField; rw [hn]; omega
    unfold isIntegral
    simp [e1, e2]
  have hf : fixnum (pcloseResult status) = none := by
    unfold fixnum isfixnum
    simp [hi]
  have hnum : isNumber (pcloseResult status) = true := by
    unfold isNumber
    rw [bne_iff_ne]
    intro e
    have e2 := congrArg BitVec.toNat e
    rw [BitVec.toNat_and] at e2
    have : (pcloseResult status).toNat &&& OBJ_MASK.toNat ≤ (pcloseResult status).toNat := Nat.and_le_left
    have h5 : OBJ_MASK.toNat = 0x7FF8000000000000 := by decide
    omega
  refine ⟨hnum, hf, ?_, ?_⟩
  · intro x
    unfold PRIM_GT PRIM_ADD
    simp [hf]
  · intro mem depth n v hs hv
    obtain ⟨w, hw, hw', _⟩ := C02_storage_exact n hs
    rw [hv] at hw; cases hw
    have hr : isNumber v = true := by
      obtain ⟨w, hw, hw', _⟩ := C01_integers_are_numbers n (by omega) (by omega)
      rw [hv] at hw; cases hw; exact hw'
    rw [eq_number mem depth _ v hr]
    congr 1
    rw [decide_eq_false_iff_not]
    rintro rfl
    rw [hf] at hw'; cases hw'

/-- when waiting fails, `pclose` returns a word that is no number and that the collector takes for the address of an object -/
theorem C100_pclose_fails_wrong (status : BitVec 32) (h : status.toInt < 0) :
    isNumber (pcloseResult status) = false ∧ isScmHead (pcloseResult status) = true := by
  have h1 := BitVec.le_toInt (x := status)
  have h2 : (pcloseResult status).toInt = status.toInt := by
    unfold pcloseResult; rw [BitVec.toInt_signExtend_of_le (by decide)]
  have h3 := BitVec.toInt_eq_toNat_cond (pcloseResult status)
  have h4 := (pcloseResult status).isLt
  have h5 : 2 ^ 64 - 2 ^ 31 ≤ (pcloseResult status).toNat := by
    split at h3 <;> omega
  have hbit : ∀ i, 31 ≤ i → i < 64 → (pcloseResult status).getLsbD i = true := by
    intro i hi hj
    unfold pcloseResult
    rw [BitVec.getLsbD_signExtend]
    have hm : status.msb = true := by
      rw [BitVec.msb_eq_toInt]; simpa using h
    rw [hm]
    by_cases h32 : i < 32
    · have : i = 31 := by omega
      subst this
      rw [BitVec.msb_eq_getLsbD_last] at hm
      simpa using hm
    · simp [h32, hj]
  have ho : (pcloseResult status) &&& OBJ_MASK = OBJ_MASK := by
    apply BitVec.eq_of_getLsbD_eq
    intro i hi
    rw [BitVec.getLsbD_and]
    by_cases h31 : 31 ≤ i
    · rw [hbit i h31 hi, Bool.true_and]
    · have : ∀ i < 31, BitVec.getLsbD OBJ_MASK i = false := by decide
      rw [this i (by omega), Bool.and_false]
  have ht : tagOf (pcloseResult status) = 7#64 := by
    apply BitVec.eq_of_getLsbD_eq
    intro i hi
    unfold tagOf
    rw [BitVec.getLsbD_and, BitVec.getLsbD_ushiftRight]
    by_cases h16 : i < 16
    · rw [hbit (48 + i) (by omega) (by omega), Bool.true_and]
    · have : ∀ i < 64, 16 ≤ i → BitVec.getLsbD 7#64 i = false := by decide
      rw [this i hi (by omega), Bool.and_false]
  refine ⟨?_, ?_⟩
  · unfold isNumber; simp [ho]
  · unfold isScmHead isobj; simp [ho, ht]

/-- a command that could not be started gives a stream like any other, with the null pointer behind it, which `pclose` hands on -/
theorem C100_popen_fails_wrong : ∃ o, popenResult 0 = some o ∧ iscobj o = true ∧ pcloseStream o = some 0 :=
  C100_stream 0 (by decide) (by decide)

/-- `false` ends with the status 256 (the exit code 1 in the second byte) -/
example : (256#32).toInt = 256 ∧ execResult 256#32 = some 0x4070000000000000#64 ∧ pcloseResult 256#32 = 256#64 := by decide
/-- `pclose` fails with −1 -/
example : pcloseResult (-1) = 0xffffffffffffffff#64 := by decide
/-- the modes -/
example : popenMode [114] = some [114] ∧ popenMode [119] = some [119] := by decide

end Cora.Os
