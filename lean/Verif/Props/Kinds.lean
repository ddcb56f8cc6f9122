import Verif.Lemmas.Kinds
/-!
# C103: a value of the wrong kind

Giving an operation on pairs, strings, vectors or functions a value of another kind stops the program. The statements are about every memory
in which the objects lie as `Spec.Kinds.Lies` says and nothing is mapped in the first page.
-/
namespace Cora.Kinds
open Spec.Kinds

/-- A reference to an object of the heap: the operations of its kind give what it holds, all others stop the program, and `vector?` answers
rightly. -/
theorem C103_references_partial {m : Mem} {o : Obj} {i : Item} (h : Refers m o i) :
    Answers m o i.pair? i.string? i.vector? i.function? := by
  obtain ⟨-, ht, hl⟩ := h
  cases i with
  | pair x y =>
    obtain ⟨h1, h2, h3⟩ := hl
    simp only [Item.tag] at ht
    constructor <;>
      simp [car, cdr, bytesLen, bytesData, isvector, vectorLength, vectorRef, vectorSet, callee, typeOf, h1, h2, h3, ht, assert, scmHeadCons,
        scmHeadBytes, scmHeadVector, scmHeadNative, Item.pair?, Item.string?, Item.vector?, Item.function?, TAG_PTR, TAG_CONS]
  | string s =>
    obtain ⟨h1, h2, h3⟩ := hl
    simp only [Item.tag] at ht
    constructor <;>
      simp [car, cdr, bytesLen, bytesData, isvector, vectorLength, vectorRef, vectorSet, callee, typeOf, h1, h2, h3, ht, assert, scmHeadCons,
        scmHeadBytes, scmHeadVector, scmHeadNative, Item.pair?, Item.string?, Item.vector?, Item.function?, TAG_PTR, TAG_BYTES]
  | vector l =>
    obtain ⟨h1, h2, h3⟩ := hl
    simp only [Item.tag] at ht
    constructor <;>
      simp [car, cdr, bytesLen, bytesData, isvector, vectorLength, vectorRef, vectorSet, callee, typeOf, h1, h2, ht, assert, scmHeadCons,
        scmHeadBytes, scmHeadVector, scmHeadNative, Item.pair?, Item.string?, Item.vector?, Item.function?]
    intro i
    simp only [element]
    by_cases h0 : 0 ≤ i
    · by_cases hi : i < (l.length : Int)
      · have hlt : i.toNat < l.length := by omega
        have := h3 i.toNat _ (List.getElem?_eq_getElem hlt)
        simp [h0, hi, this, hlt]
      · have hge : l.length ≤ i.toNat := by omega
        simp [h0, hi, hge]
    · simp [h0]
  | symbol =>
    simp only [Lies] at hl
    simp only [Item.tag] at ht
    constructor <;>
      simp [car, cdr, bytesLen, bytesData, isvector, vectorLength, vectorRef, vectorSet, callee, typeOf, hl, ht, assert, scmHeadCons,
        scmHeadBytes, scmHeadVector, scmHeadNative, Item.pair?, Item.string?, Item.vector?, Item.function?]
  | continuation =>
    simp only [Lies] at hl
    simp only [Item.tag] at ht
    constructor <;>
      simp [car, cdr, bytesLen, bytesData, isvector, vectorLength, vectorRef, vectorSet, callee, typeOf, hl, ht, assert, scmHeadCons,
        scmHeadBytes, scmHeadVector, scmHeadNative, Item.pair?, Item.string?, Item.vector?, Item.function?]
  | function n f =>
    obtain ⟨h1, h2, h3⟩ := hl
    simp only [Item.tag] at ht
    constructor <;>
      simp [car, cdr, bytesLen, bytesData, isvector, vectorLength, vectorRef, vectorSet, callee, typeOf, h1, h2, h3, ht, assert, scmHeadCons,
        scmHeadBytes, scmHeadVector, scmHeadNative, Item.pair?, Item.string?, Item.vector?, Item.function?, TAG_PTR, TAG_NATIVE]

/-- A word that is not a reference and whose lowest 48 bits are small, without the tag that `vector?` looks for: `true`, `false`, the empty list, and the
numbers with at most five binary digits that matter, but for those of `C103_vector_number_wrong`. -/
theorem C103_low_partial {m : Mem} (hm : Page m) {o : Obj} (ho : o.toNat % 2 ^ 48 < 4092) (ht : tagOf o ≠ 7#64) :
    Answers m o none none none none := by
  have h1 : m (addr o + 4) = none := hm _ (by rw [addr_eq]; omega)
  have h2 : ¬ tagOf o = TAG_PTR.setWidth 64 := ht
  constructor <;>
    simp [car, cdr, bytesLen, bytesData, isvector, vectorLength, vectorRef, vectorSet, callee, typeOf, h1, h2, assert]

/-- The constants. -/
theorem C103_constants {m : Mem} (hm : Page m) {o : Obj} (ho : Constant o) : Answers m o none none none none := by
  rcases ho with rfl | rfl | rfl | rfl <;> exact C103_low_partial hm (by decide) (by decide)

/-- Small integers whose double does not look like a reference to a vector. -/
theorem C103_small_numbers_partial {m : Mem} (hm : Page m) {d k : Nat} (hd : 16 ≤ d) (hd' : d < 32) (hk : k ≤ 48) (h7 : d % 8 ≠ 7) :
    ∃ o, makeNumber ((d * 2 ^ k : Nat) : Int) = some o ∧ Answers m o none none none none := by
  have hpos : d * 2 ^ k ≤ 32 * 2 ^ 48 := Nat.mul_le_mul (by omega) (Nat.pow_le_pow_right (by omega) hk)
  refine ⟨_, makeNumber_eq (by simp only [inInt64, Bool.and_eq_true, decide_eq_true_eq]; omega), C103_low_partial hm ?_ ?_⟩
  · rw [five_word hd hd' hk]; omega
  · intro h
    have := tag_eq (doubleOfInt ((d * 2 ^ k : Nat) : Int))
    rw [five_word hd hd' hk, h] at this
    simp at this
    omega

/-- `vector?` and `vector-length` look at the tag: symbols with a name and C objects are refused by them, whatever lies at their address. So do `set` and the
functions that take a C object, for every word that is not a number. -/
theorem C103_tags_partial {m : Mem} {o : Obj} (ho : isobj o = true) :
    (tagOf o ≠ 7#64 → isvector m o = some false ∧ vectorLength m o = none) ∧
    (∀ i, Refers m o i → placeOf m o = (match i with | .symbol => some (.own (addr o)) | _ => none) ∧ mustCObj o = none) ∧
    (∀ s, Symbol m o s → placeOf m o = some (.global (addr o)) ∧ mustCObj o = none) ∧
    (Constant o → placeOf m o = none ∧ mustCObj o = none) ∧
    (tagOf o = 2#64 → placeOf m o = none ∧ mustCObj o = some (addr o)) := by
  refine ⟨fun ht => ?_, fun i hi => ?_, fun s hs => ?_, fun hc => ?_, fun ht => ?_⟩
  · have h2 : ¬ tagOf o = TAG_PTR.setWidth 64 := ht
    simp [isvector, vectorLength, h2, assert]
  · obtain ⟨-, ht, hl⟩ := hi
    cases i <;> simp only [Item.tag, Lies] at ht hl <;>
      simp [placeOf, mustCObj, ht, TAG_SYMBOL, TAG_PTR, TAG_CONS, TAG_BYTES, TAG_NATIVE, TAG_COBJ, typeOf, hl, assert, scmHeadSymbol]
  · obtain ⟨-, ht, -⟩ := hs
    simp [placeOf, mustCObj, ht, TAG_SYMBOL, TAG_COBJ]
  · rcases hc with rfl | rfl | rfl | rfl <;> exact ⟨rfl, rfl⟩
  · simp [placeOf, mustCObj, ht, TAG_SYMBOL, TAG_PTR, TAG_COBJ]

/-- **Disagreement.** `(vector? 23)`, `(vector? 31)`, `(vector? 46)`, ... end the process: the number is taken for a reference to the address 0. -/
theorem C103_vector_number_wrong {m : Mem} (hm : Page m) {d k : Nat} (hd : d = 23 ∨ d = 31) (hk : k ≤ 48) :
    ∃ o, makeNumber ((d * 2 ^ k : Nat) : Int) = some o ∧ isvector m o = none := by
  have hd1 : 16 ≤ d := by omega
  have hd2 : d < 32 := by omega
  have hpos : d * 2 ^ k ≤ 32 * 2 ^ 48 := Nat.mul_le_mul (by omega) (Nat.pow_le_pow_right (by omega) hk)
  refine ⟨_, makeNumber_eq (by simp only [inInt64, Bool.and_eq_true, decide_eq_true_eq]; omega), ?_⟩
  have h1 : tagOf (doubleOfInt ((d * 2 ^ k : Nat) : Int)) = TAG_PTR.setWidth 64 := by
    apply BitVec.eq_of_toNat_eq
    rw [tag_eq, five_word hd1 hd2 hk]
    simp [TAG_PTR]; omega
  have h2 : addr (doubleOfInt ((d * 2 ^ k : Nat) : Int)) = 0 := by rw [addr_eq, five_word hd1 hd2 hk]; omega
  rw [isvector, if_pos h1, typeOf, h2, hm _ (by omega)]
  rfl

/-- **Disagreement.** For every object of the heap there is an integer that the operations take for a reference to it: `vector?` answers true for it,
`vector-ref` reads the vector, `vector-set!` writes it, `car` and `cdr` read a pair, the string functions a string, and a call enters
the function. -/
theorem C103_forged_wrong {m : Mem} {a : Nat} (ha : a < 2 ^ 48) {i : Item} (h : Lies m a i) :
    ∃ o, makeNumber (forged 7 a) = some o ∧ fixnum o = some (forged 7 a) ∧
      car m o = i.pair?.map (·.1) ∧ cdr m o = i.pair?.map (·.2) ∧ bytesLen m o = i.string?.map (fun s => (s.length : Int)) ∧
      isvector m o = some i.vector?.isSome ∧ (∀ j, vectorRef m o j = i.vector?.bind (element · j)) ∧
      (∀ j l, i.vector? = some l → 0 ≤ j → j < (l.length : Int) → vectorSet m o j = some (a + 32 + 8 * j.toNat)) ∧ callee m o = i.function? := by
  obtain ⟨h1, h2⟩ := forged_bits (t := 7) (by omega) ha
  refine ⟨doubleOfInt (forged 7 a), makeNumber_eq (forged_in (by omega) ha),
    fixnum_doubleOfInt (forged_abs (by omega) ha), ?_⟩
  generalize doubleOfInt (forged 7 a) = o at h1 h2
  have ht : tagOf o = TAG_PTR.setWidth 64 := h2
  cases i with
  | vector l =>
    obtain ⟨g1, g2, g3⟩ := h
    have hr : ∀ j, vectorRef m o j = element l j := by
      intro j
      simp only [element]
      by_cases h0 : 0 ≤ j
      · by_cases hi : j < (l.length : Int)
        · have hlt : j.toNat < l.length := by omega
          have := g3 j.toNat _ (List.getElem?_eq_getElem hlt)
          simp [vectorRef, vectorSet, typeOf, assert, h1, g1, g2, scmHeadVector, h0, hi, this, hlt]
        · have hge : l.length ≤ j.toNat := by omega
          simp [vectorRef, vectorSet, typeOf, assert, h1, g1, g2, scmHeadVector, h0, hi, hge]
      · simp [vectorRef, vectorSet, typeOf, assert, h1, g1, g2, scmHeadVector, h0]
    refine ⟨?_, ?_, ?_, ?_, ?_, ?_, ?_⟩
    · simp [car, typeOf, h1, g1, assert, scmHeadCons, Item.pair?]
    · simp [cdr, typeOf, h1, g1, assert, scmHeadCons, Item.pair?]
    · simp [bytesLen, typeOf, h1, g1, assert, scmHeadBytes, Item.string?]
    · simp [isvector, typeOf, ht, h1, g1, scmHeadVector, Item.vector?]
    · simpa [Item.vector?] using hr
    · rintro j l' ⟨rfl⟩ h0 hj
      simp [vectorSet, typeOf, assert, h1, g1, g2, scmHeadVector, h0, hj]
    · simp [callee, typeOf, h1, g1, assert, scmHeadNative, Item.function?]
  | _ =>
    simp only [Lies] at h
    simp [car, cdr, bytesLen, isvector, vectorRef, vectorSet, callee, typeOf, h1, ht, h, assert, scmHeadCons,
        scmHeadBytes, scmHeadVector, scmHeadNative, Item.pair?, Item.string?, Item.vector?, Item.function?]

/-- **Disagreement.** `set` takes a number for a symbol, whatever the address, and the functions on C objects (ports, threads, loaded
libraries) take one for a C pointer of the caller's choice. -/
theorem C103_number_as_pointer_wrong (m : Mem) {a : Nat} (ha : a < 2 ^ 48) :
    (∃ o, makeNumber (forged 3 a) = some o ∧ fixnum o = some (forged 3 a) ∧ placeOf m o = some (.global a)) ∧
    (∃ o, makeNumber (forged 2 a) = some o ∧ fixnum o = some (forged 2 a) ∧ mustCObj o = some a) := by
  constructor
  · obtain ⟨h1, h2⟩ := forged_bits (t := 3) (by omega) ha
    refine ⟨_, makeNumber_eq (forged_in (by omega) ha),
      fixnum_doubleOfInt (forged_abs (by omega) ha), ?_⟩
    have h3 : tagOf (doubleOfInt (forged 3 a)) = TAG_SYMBOL.setWidth 64 := h2
    rw [placeOf, if_pos h3, h1]
  · obtain ⟨h1, h2⟩ := forged_bits (t := 2) (by omega) ha
    refine ⟨_, makeNumber_eq (forged_in (by omega) ha),
      fixnum_doubleOfInt (forged_abs (by omega) ha), ?_⟩
    have h3 : tagOf (doubleOfInt (forged 2 a)) = TAG_COBJ.setWidth 64 := h2
    rw [mustCObj, if_pos h3, h1]

/-- **Disagreement.** A symbol with a name has no header: the byte in which the others keep their kind is the length of the name. One of 3, 4, 5 or 7
characters (or 256 more, ...) is taken for a pair, a string, a vector or a function, whose contents are the characters of the name. So
`(string-length 'list)` is 1953720684, and a call of a symbol with 263 characters goes to the address that its characters 9 to 16
spell. -/
theorem C103_symbol_wrong {m : Mem} {o : Obj} {s : List (BitVec 8)} (h : Symbol m o s) :
    (s.length % 256 = 3 → 16 ≤ s.length → car m o = some (.ofNat 64 (le (slice s 0 8))) ∧ cdr m o = some (.ofNat 64 (le (slice s 8 8)))) ∧
    (s.length % 256 = 4 → bytesLen m o = some (signed (slice s 0 4)) ∧ bytesData m o = some (addr o + 12)) ∧
    (s.length % 256 = 5 → ∀ i : Nat, 32 + 8 * i ≤ s.length → (i : Int) < signed (slice s 16 4) →
      vectorRef m o i = some (.ofNat 64 (le (slice s (24 + 8 * i) 8))) ∧ vectorSet m o i = some (addr o + 32 + 8 * i)) ∧
    (s.length % 256 = 7 → 16 ≤ s.length → callee m o = some (signed (slice s 0 4), .ofNat 64 (le (slice s 8 8)))) := by
  obtain ⟨-, -, hn⟩ := h
  have ht := named_type hn
  obtain ⟨-, -, hs⟩ := hn
  have hty : ∀ c, s.length % 256 = c → typeOf m o = some (BitVec.ofNat 8 c) := by
    intro c hc
    rw [typeOf, ht]
    congr 1
    apply BitVec.eq_of_toNat_eq
    simp only [BitVec.toNat_ofNat]; omega
  refine ⟨fun hc h8 => ?_, fun hc => ?_, fun hc i hi hlt => ?_, fun hc h16 => ?_⟩
  · have h1 := wordAt_eq (bytesAt_slice hs (i := 0) (k := 8) (by omega))
    have h2 := wordAt_eq (bytesAt_slice hs (i := 8) (k := 8) (by omega))
    rw [show addr o + 8 + 0 = addr o + 8 by omega] at h1
    rw [show addr o + 8 + 8 = addr o + 16 by omega] at h2
    simp [car, cdr, hty 3 hc, scmHeadCons, assert, h1, h2]
  · have h1 := int32At_eq (bytesAt_slice hs (i := 0) (k := 4) (by omega))
    rw [show addr o + 8 + 0 = addr o + 8 by omega] at h1
    simp [bytesLen, bytesData, hty 4 hc, scmHeadBytes, assert, h1]
  · have h1 := int32At_eq (bytesAt_slice hs (i := 16) (k := 4) (by omega))
    have h2 := wordAt_eq (bytesAt_slice hs (i := 24 + 8 * i) (k := 8) (by omega))
    rw [show addr o + 8 + 16 = addr o + 24 by omega] at h1
    rw [show addr o + 8 + (24 + 8 * i) = addr o + 32 + 8 * i by omega] at h2
    simp [vectorRef, vectorSet, hty 5 hc, scmHeadVector, assert, h1, h2, hlt]
  · have h1 := int32At_eq (bytesAt_slice hs (i := 0) (k := 4) (by omega))
    have h2 := wordAt_eq (bytesAt_slice hs (i := 8) (k := 8) (by omega))
    rw [show addr o + 8 + 0 = addr o + 8 by omega] at h1
    rw [show addr o + 8 + 8 = addr o + 16 by omega] at h2
    simp [callee, hty 7 hc, scmHeadNative, assert, h1, h2]

/-- **Disagreement.** In compiled code `car` checks nothing: of a string of four characters or more it gives the word made of its length and its first four
characters. -/
theorem C103_compiled_car_wrong {m : Mem} {o : Obj} {s : List (BitVec 8)} (h : Refers m o (.string s)) (h4 : 4 ≤ s.length) :
    PRIM_CAR m o = some (.ofNat 64 (s.length + 2 ^ 32 * le (slice s 0 4))) := by
  obtain ⟨-, -, -, hl, hs⟩ := h
  have h2 := bytesAt_slice hs (i := 0) (k := 4) (by omega)
  rw [show addr o + 12 + 0 = addr o + 8 + 4 by omega] at h2
  cases h1 : bytesAt m (addr o + 8) 4 with
  | none => simp [int32At, h1] at hl
  | some l =>
    rw [int32At_eq h1] at hl
    have hlen : le l = s.length := by
      simp only [signed, Option.some.injEq] at hl
      have hbound : le l < 2 ^ 32 := by
        have h4 := bytesAt_length h1
        match l, h4 with
        | [a, b, c, d], _ =>
          simp only [le]
          have := a.isLt; have := b.isLt; have := c.isLt; have := d.isLt
          omega
      split at hl <;> omega
    have := bytesAt_append h1 h2
    rw [PRIM_CAR, wordAt_eq this, le_append, bytesAt_length h1, hlen]

/-! ### Concrete cases -/

/-- the bytes from address 8192 on; nothing else is mapped -/
def memory (l : List (BitVec 8)) : Mem := fun a => if a < 8192 then none else l[a - 8192]?

theorem memory_page (l : List (BitVec 8)) : Page (memory l) := by
  intro a ha; simp only [memory]; rw [if_pos (by omega)]

/-- a symbol `list`: capacity 16, length 4, the characters -/
def listSymbol : List (BitVec 8) := [16, 0, 0, 0, 4, 0, 0, 0, 0x6c, 0x69, 0x73, 0x74]

/-- the word of the symbol -/
def listWord : Obj := 0x7FFB000000002000

example : Symbol (memory listSymbol) listWord [0x6c, 0x69, 0x73, 0x74] :=
  ⟨by decide, by decide, ⟨16, by decide⟩, by decide, by decide⟩

/-- `(string-length 'list)` -/
example : bytesLen (memory listSymbol) listWord = some 1953720684 := by decide

/-- the string "list" -/
def listString : List (BitVec 8) := [24, 0, 0, 0, 4, 0, 0, 0, 4, 0, 0, 0, 0x6c, 0x69, 0x73, 0x74, 0]

example : Refers (memory listString) 0x7FFC000000002000 (.string [0x6c, 0x69, 0x73, 0x74]) :=
  ⟨by decide, by decide, by decide, by decide, by decide⟩

example : bytesLen (memory listString) 0x7FFC000000002000 = some 4 ∧ car (memory listString) 0x7FFC000000002000 = none ∧
    PRIM_CAR (memory listString) 0x7FFC000000002000 = some 0x7473696c00000004 := by decide

/-- a vector with the one element 1 -/
def oneVector : List (BitVec 8) :=
  [40, 0, 0, 0, 5, 0, 0, 0,  0, 0, 0, 0, 0, 0, 0, 0,  0, 0, 0, 0, 0, 0, 0, 0,  1, 0, 0, 0, 1, 0, 0, 0,  0, 0, 0, 0, 0, 0, 0xF0, 0x3F]

example : Lies (memory oneVector) 8192 (.vector [doubleOfInt 1]) := by
  refine ⟨by decide, by decide, fun i x h => ?_⟩
  match i, h with
  | 0, h =>
    simp only [List.getElem?_cons_zero, Option.some.injEq] at h
    subst h
    decide +kernel

/-- `(vector? 6473924464353280)` is true -/
example : isvector (memory oneVector) (doubleOfInt 6473924464353280) = some true := by decide +kernel

example : Constant Nil ∧ Page (memory oneVector) := ⟨.inl rfl, memory_page _⟩

end Cora.Kinds
