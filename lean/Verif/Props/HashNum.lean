import Verif.Model.HashNum
import Verif.Props.Hash
import Verif.Props.Values
import Verif.Props.Equal
/-
C65: keys that are equal have the same hash number.
-/
open Spec
namespace Cora.HashNum

theorem hasTag_tag {o : Obj} {t : BitVec 8} (ht : t.toNat < 8) (h : hasTag t o = true) :
    isobj o = true ∧ tagOf o = t.setWidth 64 := by
  unfold hasTag at h
  rw [beq_iff_eq] at h
  have h1 : ∀ t : BitVec 8, t.toNat < 8 →
      (((t.setWidth 64 <<< 48) ||| OBJ_MASK) &&& OBJ_MASK = OBJ_MASK) ∧
      ((((t.setWidth 64 <<< 48) ||| OBJ_MASK) >>> 48) &&& 7#64) = t.setWidth 64 := by decide +kernel
  have e1 : o &&& OBJ_MASK = (o &&& MASK) &&& OBJ_MASK := by
    rw [BitVec.and_assoc]; congr 1
  have e2 : (o >>> 48) &&& 7#64 = ((o &&& MASK) >>> 48) &&& 7#64 := by
    rw [BitVec.ushiftRight_and_distrib, BitVec.and_assoc]; congr 1
  constructor
  · unfold isobj; rw [e1, h, (h1 t ht).1]; simp
  · unfold tagOf; rw [e2, h, (h1 t ht).2]

theorem not_fixnum {o : Obj} (h : isobj o = true) : isfixnum o = false := by
  unfold isfixnum
  rw [isNumber_eq_not, h]
  rfl

/-- every string and every pair has the hash number 42 -/
theorem C65_strings_and_pairs (m : Mem) (t : SymTab) (isvec : Obj → Bool) (fuel : Nat) (o : Obj)
    (h : isBytes o = true ∨ iscons o = true) : hashToNumber m t isvec (fuel + 1) o = makeNumber 42 := by
  simp only [hashToNumber]
  rcases h with h | h
  · obtain ⟨h1, h2⟩ := hasTag_tag (t := TAG_BYTES) (by decide) h
    rw [not_fixnum h1, h2]
    rw [if_neg (by decide), if_neg (by decide), if_neg (by decide), if_neg (by decide)]
  · obtain ⟨h1, h2⟩ := hasTag_tag (t := TAG_CONS) (by decide) h
    rw [not_fixnum h1, h2]
    rw [if_neg (by decide), if_neg (by decide), if_neg (by decide), if_neg (by decide)]

/-- keys that are equal by `=` have the same hash number, for every memory and every pair of keys -/
theorem C65_equal_keys (m : Mem) (t : SymTab) (isvec : Obj → Bool) (depth fuel : Nat) (x y : Obj)
    (h : eqObj m depth x y = some true) :
    hashToNumber m t isvec (fuel + 1) x = hashToNumber m t isvec (fuel + 1) y := by
  cases depth with
  | zero => cases h
  | succ n =>
    simp only [eqObj] at h
    split at h
    · rename_i e; rw [e]
    · split at h
      · rename_i hc
        rw [Bool.and_eq_true] at hc
        rw [C65_strings_and_pairs _ _ _ _ _ (.inr hc.1), C65_strings_and_pairs _ _ _ _ _ (.inr hc.2)]
      · split at h
        · rename_i hc
          rw [Bool.and_eq_true] at hc
          rw [C65_strings_and_pairs _ _ _ _ _ (.inl hc.1), C65_strings_and_pairs _ _ _ _ _ (.inl hc.2)]
        · cases h

/-- the same for keys that stand for the same datum -/
theorem C65_same_datum (m : Mem) (t : SymTab) (isvec : Obj → Bool) (fuel : Nat) (x y : Obj) (d : Datum)
    (hx : Denotes m x d) (hy : Denotes m y d) :
    hashToNumber m t isvec (fuel + 1) x = hashToNumber m t isvec (fuel + 1) y := by
  cases hx with
  | atom h1 h2 =>
    cases hy with
    | atom _ _ => rfl
  | str h hm hl =>
    cases hy with
    | str h' _ _ => rw [C65_strings_and_pairs _ _ _ _ _ (.inl h), C65_strings_and_pairs _ _ _ _ _ (.inl h')]
  | pair h _ _ _ =>
    cases hy with
    | pair h' _ _ _ => rw [C65_strings_and_pairs _ _ _ _ _ (.inr h), C65_strings_and_pairs _ _ _ _ _ (.inr h')]

/-- an integer is its own hash number -/
theorem C65_integers (m : Mem) (t : SymTab) (isvec : Obj → Bool) (fuel : Nat) (n : Int) (h : n.natAbs ≤ 2 ^ 53) :
    ∃ o, makeNumber n = some o ∧ hashToNumber m t isvec (fuel + 1) o = some o ∧ fixnum o = some n := by
  obtain ⟨o, h1, h2, _⟩ := C02_storage_exact n h
  refine ⟨o, h1, ?_, h2⟩
  simp only [hashToNumber]
  rw [if_pos]
  unfold fixnum at h2
  split at h2
  · rename_i hh; exact (Bool.and_eq_true _ _ ▸ hh).1
  · cases h2

/-- the constants have four different hash numbers -/
theorem C65_constants (m : Mem) (t : SymTab) (isvec : Obj → Bool) (fuel : Nat) :
    hashToNumber m t isvec (fuel + 1) True' = makeNumber 17 ∧ hashToNumber m t isvec (fuel + 1) False' = makeNumber 37 ∧
      hashToNumber m t isvec (fuel + 1) Nil = makeNumber 41 ∧ hashToNumber m t isvec (fuel + 1) Undef = makeNumber 47 :=
  ⟨rfl, rfl, rfl, rfl⟩

/-- a symbol with fewer than 255 characters, all of them ASCII, has a hash number that is not negative -/
theorem C65_symbols (m : Mem) (t : SymTab) (isvec : Obj → Bool) (fuel : Nat) (o : Obj) (s : Key)
    (ho : isobj o = true) (ht : tagOf o = TAG_SYMBOL.setWidth 64) (hs : t.deref (ptrOf o) = some s)
    (hl : s.1.length < 255) (ha : ∀ c ∈ s.1, c.toNat < 128) :
    hashToNumber m t isvec (fuel + 1) o = makeNumber (((cname s.1).map fun c => (c.toNat : Int)).sum) := by
  simp only [hashToNumber]
  rw [not_fixnum ho, if_neg (by decide), if_pos ht, if_pos ho]
  have e : symbolToString t o = some (cname s.1) := by
    simp only [symbolToString, if_pos ht, hs, Option.bind_eq_bind, Option.bind_some]
    rw [if_pos (by omega)]
  rw [e]
  simp only [Option.bind_eq_bind, Option.bind_some, hashForString]
  have e2 : cname (cname s.1) = cname s.1 := by
    unfold cname
    generalize s.1 = l
    induction l with
    | nil => rfl
    | cons c l ih =>
      rw [List.takeWhile_cons]
      split
      · rename_i hc; rw [List.takeWhile_cons, if_pos hc, ih]
      · rfl
  rw [e2]
  congr 2
  refine List.map_congr_left fun c hc => ?_
  have : c ∈ s.1 := by
    unfold cname at hc
    exact (List.takeWhile_sublist _).subset hc
  simp [charVal, ha c this]

/-- So the keys of a table that are strings all share one bucket, whatever its size, and deleting the second of two
strings deletes the first one. (Here the table has string keys, all with the hash number C65_strings_and_pairs gives.) -/
theorem C65_string_keys_wrong (n : Nat) (hn : 0 < n) (a b : Bytes) (hab : a ≠ b) (v w : Nat) :
    ∃ h, Hash.run (fun _ : Bytes => 42) (Hash.make n) [.set a v, .set b w, .del b] = some h ∧
      Hash.get (fun _ => 42) h a = some none ∧ Hash.get (fun _ => 42) h b = some (some (b, w)) :=
  Hash.C50_delete_removes_the_wrong_key _ n hn a b v w hab (by decide) (by decide) rfl

/-- two copies of a string, at different addresses, are equal keys -/
example : let m : Mem := fun a => if a = 16 then some (.bytes [97]) else if a = 32 then some (.bytes [97]) else none
    let x : Obj := packed 16 TAG_BYTES
    let y : Obj := packed 32 TAG_BYTES
    x ≠ y ∧ eqObj m 1 x y = some true := by decide +kernel

end Cora.HashNum
