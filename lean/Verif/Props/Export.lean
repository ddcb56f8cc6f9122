import Verif.Model.Export
import Verif.Props.Values
import Verif.Props.Containers
import Verif.Props.Buffer
/-
Property C106: values cross the border between cora and a host program unchanged.
-/
namespace Cora.Export
open Spec

theorem toInt_range (v : BitVec 32) : -(2:Int) ^ 31 ≤ v.toInt ∧ v.toInt < 2 ^ 31 := by
  have h1 := BitVec.le_toInt v
  have h2 := BitVec.toInt_lt (x := v)
  omega

/-- C106 (numbers). Every `int` of the host becomes the number with that value, and is read back as the same `int`. -/
theorem C106_number (v : BitVec 32) : ∃ o, coraMakeNumber v = some o ∧ IsDoubleOf o v.toInt ∧ coraFixnum o = some v := by
  have := toInt_range v
  obtain ⟨o, h1, h2, h3⟩ := C02_storage_exact v.toInt (by omega)
  exact ⟨o, h1, h3, by simp [coraFixnum, h2]⟩

/-- C106 (numbers made by cora). A number of cora in the range of an `int` is read by the host with its value. -/
theorem C106_fixnum_partial (o : Obj) (n : Int) (ho : fixnum o = some n) (hn : -(2:Int) ^ 31 ≤ n ∧ n < 2 ^ 31) :
    ∃ v, coraFixnum o = some v ∧ v.toInt = n := by
  refine ⟨BitVec.ofInt 32 n, by simp [coraFixnum, ho], ?_⟩
  rw [BitVec.toInt_ofInt]
  exact Int.bmod_eq_of_le (by omega) (by omega)

/-- C106 fails outside: the host reads any other number of cora as a different one. -/
theorem C106_fixnum_wrong (o : Obj) (n : Int) (ho : fixnum o = some n) (hn : n < -(2:Int) ^ 31 ∨ 2 ^ 31 ≤ n) :
    ∃ v, coraFixnum o = some v ∧ v.toInt ≠ n := by
  refine ⟨BitVec.ofInt 32 n, by simp [coraFixnum, ho], ?_⟩
  have := toInt_range (BitVec.ofInt 32 n)
  omega

/-- such numbers exist: 4294967301 is read as 5 -/
example : ∃ o, makeNumber 4294967301 = some o ∧ fixnum o = some 4294967301 ∧ coraFixnum o = some 5#32 := by
  obtain ⟨o, h1, h2, _⟩ := C02_storage_exact 4294967301 (by decide)
  exact ⟨o, h1, h2, by simp [coraFixnum, h2]⟩

theorem makeString_data {junk : Nat → Byte} {s : Bytes} (h : s.length + 13 < 64 * 1024 * 1024) :
    ∃ b, Buffer.makeString junk s = some b ∧ b.data = s ∧ b.mem = s ++ [0] ∧ b.len = s.length := by
  have hl : (malloc junk (s.length + 1)).length = s.length + 1 := Buffer.malloc_length _ _
  have h1 : write (malloc junk (s.length + 1)) 0 s = some (s ++ (malloc junk (s.length + 1)).drop s.length) := by
    simp [write, hl]
  have h2 : write (s ++ (malloc junk (s.length + 1)).drop s.length) s.length [0] = some (s ++ [0]) := by
    rw [write, if_pos (by simp [hl])]
    rw [List.take_left' rfl, List.drop_eq_nil_of_le (by simp [hl]), List.append_nil]
  refine ⟨⟨s.length, s ++ [0]⟩, ?_, by simp [Buffer.Block.data], rfl, rfl⟩
  simp only [Buffer.makeString, Buffer.makeBytes, if_pos (show (0:Int) ≤ (s.length : Int) ∧ (s.length : Int) + 13 < 64 * 1024 * 1024 by omega),
    Int.toNat_natCast, Option.bind_eq_bind, Option.bind_some, h1, h2]

theorem small {a : Nat} {z : Int} (h : a ≤ z.toNat) (h0 : 0 ≤ z) (h2 : z + 13 < 64 * 1024 * 1024) : a + 13 < 64 * 1024 * 1024 := by
  omega

/-- C106 (strings). `len` bytes of the host's memory become the string of these bytes, whatever they are, and the host sees them
again behind `coraBytesData`, with a NUL after them. -/
theorem C106_string (junk : Nat → Byte) (p : Bytes) (len : BitVec 32) (h0 : 0 ≤ len.toInt) (h1 : len.toInt ≤ p.length)
    (h2 : len.toInt + 13 < 64 * 1024 * 1024) :
    ∃ b, coraMakeString junk p len = some b ∧ b.data = p.take len.toInt.toNat ∧ coraBytesData b = p.take len.toInt.toNat ++ [0] := by
  have hr : readRange p 0 len.toInt = some (p.take len.toInt.toNat) := by
    have hc : 0 ≤ (0:Int) ∧ 0 ≤ len.toInt ∧ 0 + len.toInt ≤ p.length := ⟨Int.le_refl _, h0, by rw [Int.zero_add]; exact h1⟩
    rw [readRange, if_pos hc]; simp
  have hl : (p.take len.toInt.toNat).length + 13 < 64 * 1024 * 1024 := by
    have : (p.take len.toInt.toNat).length ≤ len.toInt.toNat := List.length_take_le _ _
    exact small this h0 h2
  obtain ⟨b, e, d, m, _⟩ := makeString_data (junk := junk) (s := p.take len.toInt.toNat) hl
  have q : coraMakeString junk p len = some b := by
    unfold coraMakeString
    rw [hr, Option.bind_eq_bind, Option.bind_some, e]
  exact ⟨b, q, d, m⟩

/-- C106 (C strings). The bytes before the first NUL become the string, and the host reads them back as a C string. -/
theorem C106_cstring (junk : Nat → Byte) (s rest : Bytes) (hs : 0 ∉ s) (hl : s.length + 13 < 64 * 1024 * 1024) :
    ∃ b, coraMakeCString junk (s ++ 0 :: rest) = some b ∧ b.data = s ∧ (coraBytesData b).takeWhile (· ≠ 0) = s := by
  have ht : ∀ r : Bytes, (s ++ 0 :: r).takeWhile (· ≠ 0) = s := by
    intro r
    rw [List.takeWhile_append_of_pos (by intro c hc; simp; rintro rfl; exact hs hc)]
    simp
  obtain ⟨b, e, d, m, _⟩ := makeString_data (junk := junk) (s := s) hl
  refine ⟨b, ?_, d, by rw [coraBytesData, m]; exact ht []⟩
  rw [coraMakeCString, if_pos (by simp), ht]
  exact e

/-- C106 (C strings): memory with no NUL in it is no C string. There is no result: the length is looked for beyond its end. -/
theorem C106_cstring_ends (junk : Nat → Byte) (p : Bytes) (hp : 0 ∉ p) : coraMakeCString junk p = none := by
  simp [coraMakeCString, hp]

/-- non-vacuity: a string with a NUL in it, made with its length and as a C string -/
example : (coraMakeString (fun _ => 7) [97, 0, 98, 99] 3#32).map (·.data) = some [97, 0, 98] ∧
    (coraMakeCString (fun _ => 7) [97, 0, 98, 99]).map (·.data) = some [97] := by decide

theorem stores_eq : ∀ (hist : List (BitVec 32 × Obj)) (v : Vec),
    stores v hist = runStores v (hist.map (fun e => (e.1.toInt, e.2)))
  | [], _ => rfl
  | (i, x) :: r, v => by
    have := toInt_range i
    simp only [stores, coraVectorSet, List.map_cons, runStores, builtinVectorSet, toInt32_id (x := i.toInt) (by omega) (by omega)]
    congr 1
    funext w
    exact stores_eq r w

/-- C106 (vectors). A vector the host makes is an array: after any history of `coraVectorSet` inside its size, `coraVectorRef`
gives the value stored last at the index, and outside the size both trap. -/
theorem C106_vector (junk : Nat → Obj) (size cap : BitVec 32) (v : Vec) (hv : coraMakeVector junk size cap = some v)
    (hist : List (BitVec 32 × Obj)) (hr : ∀ e ∈ hist, 0 ≤ e.1.toInt ∧ e.1.toInt < size.toInt) :
    ∃ w, stores v hist = some w ∧ (vectorLength w : Int) = size.toInt ∧ ∀ (i : BitVec 32) (x : Obj),
      if 0 ≤ i.toInt ∧ i.toInt < size.toInt then
        coraVectorRef w i = some (lastStore Undef (hist.map (fun e => (e.1.toInt, e.2))) i.toInt)
      else coraVectorRef w i = none ∧ coraVectorSet w i x = none := by
  have hz := toInt_range size
  obtain ⟨h0, h1, hs, hl, hu⟩ := makeVector_some hv
  obtain ⟨w, e1, s1, l1, g1⟩ := runStores_spec (hist.map (fun e => (e.1.toInt, e.2))) (v := v) (by omega)
    (by intro e he; obtain ⟨a, ha, rfl⟩ := List.mem_map.1 he; have := hr a ha; simp only; omega) (by omega)
  refine ⟨w, by rw [stores_eq, e1], by simp only [vectorLength]; omega, ?_⟩
  intro i x
  split
  · rename_i hi
    rw [coraVectorRef, vectorRef, if_pos (by omega), g1 i.toInt.toNat (by omega) Undef (hu _ (by omega))]
    congr 2
    omega
  · rename_i hi
    have : ¬ (0 ≤ i.toInt ∧ i.toInt < (w.size : Int)) := by omega
    simp [coraVectorRef, coraVectorSet, vectorRef, vectorSet, this]

/-- non-vacuity: room for four, size two, three stores -/
example : ∃ v w, coraMakeVector (fun _ => 0) 2#32 4#32 = some v ∧ stores v [(0#32, 5#64), (1#32, 6#64), (0#32, 7#64)] = some w ∧
    coraVectorRef w 0#32 = some 7#64 ∧ coraVectorRef w 2#32 = none :=
  ⟨⟨2, [Undef, Undef, 0, 0]⟩, ⟨2, [7#64, 6#64, 0, 0]⟩, by decide, by decide, by decide, by decide⟩

theorem reverseLoop_list {α : Type} : ∀ (l : List (V α)) (r : List (V α)),
    reverseLoop (V.ofList l) (V.ofList r) = some (V.ofList (l.reverse ++ r))
  | [], _ => rfl
  | a :: l, r => by
    simp only [V.ofList, reverseLoop]
    exact (reverseLoop_list l (a :: r)).trans (by simp)

theorem reverseLoop_some {α : Type} : ∀ (o ret x : V α), reverseLoop o ret = some x → ∃ l, o = V.ofList l
  | .nil, _, _, _ => ⟨[], rfl⟩
  | .cons a d, ret, x, h => by
    obtain ⟨l, rfl⟩ := reverseLoop_some d _ x h
    exact ⟨a :: l, rfl⟩
  | .atom _, _, _, h => by simp [reverseLoop] at h

/-- C106 (lists). `coraReverse` gives the elements of a list in the opposite order, and traps on everything that is not a list. -/
theorem C106_reverse {α : Type} (o : V α) :
    (∀ l, o = V.ofList l → coraReverse o = some (V.ofList l.reverse)) ∧ ((¬ ∃ l, o = V.ofList l) → coraReverse o = none) := by
  constructor
  · rintro l rfl
    have := reverseLoop_list l []
    simpa [coraReverse, V.ofList] using this
  · intro h
    cases e : coraReverse o with
    | none => rfl
    | some x => exact absurd (reverseLoop_some o _ x e) h

example : coraReverse (V.cons (.atom 1) (.cons .nil .nil)) = some (.cons .nil (.cons (.atom 1) .nil)) ∧
    coraReverse (V.cons (.atom 1) (.atom 2)) = none := by decide

/-- C106 fails for nine functions of the header: no file defines them, so a host that calls one of them is not linked. Among them are
all that ask for the kind of a value, take a pair apart, or tell the length of a string or vector. -/
theorem C106_declared_wrong : declared.filter (fun f => !defined.contains f) =
    ["coraMustCObj", "coraIsNumber", "coraMakeBytes", "coraBytesLen", "coraCar", "coraCdr", "coraVectorAppend", "coraIsVector",
     "coraVectorLength"] := by decide +kernel

end Cora.Export
