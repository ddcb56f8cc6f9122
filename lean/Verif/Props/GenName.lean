import Verif.Spec.GenName
import Verif.Model.GenName
import Verif.Props.Maps
import Verif.Props.Ident
import Verif.Props.Reader
/-
C112: generated symbols and their names.
-/
open Spec Spec.GenName
namespace Cora.GenName

theorem packed_toNat {p : Obj} (hp : p >>> 48 = 0#64) : (packed p TAG_PTR).toNat = 0x7FFF000000000000 + p.toNat := by
  have hlt : p.toNat < 2 ^ 48 := by
    have := congrArg BitVec.toNat hp
    rw [BitVec.toNat_ushiftRight, Nat.shiftRight_eq_div_pow] at this
    have h0 : (0#64 : BitVec 64).toNat = 0 := rfl
    rw [h0] at this
    omega
  have h1 : packed p TAG_PTR = 0x7FFF000000000000#64 ||| p := rfl
  rw [h1, BitVec.toNat_or]
  have h2 : (0x7FFF000000000000#64 : BitVec 64).toNat = 2 ^ 48 * 0x7FFF := by decide
  rw [h2, ← Nat.two_pow_add_eq_or_of_lt hlt]

theorem low_lt {p : Obj} (hp : p >>> 48 = 0#64) : p.toNat < 2 ^ 48 := by
  have := congrArg BitVec.toNat hp
  rw [BitVec.toNat_ushiftRight, Nat.shiftRight_eq_div_pow] at this
  have h0 : (0#64 : BitVec 64).toNat = 0 := rfl
  rw [h0] at this
  omega

/-- the digits of a number determine it -/
theorem digits_inj {m n : Nat} (h : Reader.decDigits m = Reader.decDigits n) : m = n := by
  have a := (Reader.decDigits_spec m).2.2 0
  have b := (Reader.decDigits_spec n).2.2 0
  rw [h] at a
  omega

/-- the name of the generated symbol at an address -/
def nameOf (p : Obj) : Bytes := 120 :: Reader.decDigits (0x7FFF000000000000 + p.toNat)

theorem digits_ge (n k : Nat) (h : 10 ^ k ≤ n) : k < (Reader.decDigits n).length := by
  induction n using Reader.decDigits.induct generalizing k with
  | case1 n h' =>
    cases k with
    | zero => rw [Reader.decDigits, if_pos h', List.length_singleton]; exact Nat.one_pos
    | succ k =>
      exfalso
      have : 10 ^ 1 ≤ 10 ^ (k + 1) := Nat.pow_le_pow_right (by decide) (by omega)
      omega
  | case2 n h' ih =>
    rw [Reader.decDigits, if_neg h', List.length_append, List.length_singleton]
    cases k with
    | zero => omega
    | succ k =>
      have := ih k (by rw [Nat.pow_succ] at h; omega)
      omega

theorem nameOf_looks {p : Obj} (hp : p >>> 48 = 0#64) : LooksGenerated (nameOf p) := by
  have hlt := low_lt hp
  refine ⟨_, rfl, ?_, ?_⟩
  · have h1 := Reader.decDigits_length (0x7FFF000000000000 + p.toNat) 19 (by decide) (by omega)
    have h2 := digits_ge (0x7FFF000000000000 + p.toNat) 18 (by omega)
    omega
  · exact (Reader.decDigits_spec _).2.1

theorem name_eq {t : SymTab} {gen : Obj → Bool} {p : Obj} (hp : p >>> 48 = 0#64) (hg : gen p = true) :
    symbolStr t gen (packed p TAG_PTR) = some (nameOf p) := by
  have ht : tagOf (packed p TAG_PTR) = TAG_PTR.setWidth 64 := tagOf_packed hp TAG_PTR (by decide)
  have hne : ¬ TAG_PTR.setWidth 64 = TAG_SYMBOL.setWidth 64 := by decide
  have hi : (packed p TAG_PTR).toInt = ((0x7FFF000000000000 + p.toNat : Nat) : Int) := by
    have := packed_toNat hp
    have hlt := low_lt hp
    rw [BitVec.toInt_eq_toNat_of_lt (by omega), this]
  have hs : issymbol gen (packed p TAG_PTR) = true := by
    simp only [issymbol, isobj_packed, ht, ptrOf_packed hp, hg]; decide
  unfold symbolStr
  rw [if_pos hs, if_neg (by rw [ht]; exact hne), hi]
  have hprint : Reader.printInt ((0x7FFF000000000000 + p.toNat : Nat) : Int) = Reader.decDigits (0x7FFF000000000000 + p.toNat) := by
    unfold Reader.printInt
    rw [if_neg (by omega), Int.natAbs_natCast]
  rw [hprint]
  obtain ⟨r, h1, h2, -⟩ := nameOf_looks hp
  have hlen : (nameOf p).length = 20 := by rw [h1, List.length_cons, h2]
  show some ((nameOf p).take 255) = some (nameOf p)
  rw [List.take_of_length_le (by omega)]

theorem looks_chars {s : Bytes} (h : LooksGenerated s) : (∀ c ∈ s, CIdentChar c ∧ c ≠ 95) ∧ ¬ StartsDigit s ∧ s.length < 255 ∧
    (∀ c ∈ s, Printing c) := by
  obtain ⟨r, rfl, h1, h2⟩ := h
  refine ⟨fun c hc => ?_, ?_, by rw [List.length_cons, h1]; decide, fun c hc => ?_⟩
  · rcases List.mem_cons.mp hc with rfl | hc
    · exact ⟨.inl (by decide), by decide⟩
    · refine ⟨.inr (.inr (.inl (h2 c hc))), ?_⟩
      rintro rfl
      have := (h2 95 hc).2
      revert this; decide
  · rintro ⟨c, r', e, h3, h4⟩
    cases e
    revert h4; decide
  · rcases List.mem_cons.mp hc with rfl | hc
    · exact ⟨by decide, by decide⟩
    · have := h2 c hc
      exact ⟨by omega, by omega⟩

/-- C112 (a). Symbols generated at different addresses are different symbols with different names; the name of a symbol stays the same, whatever
is interned meanwhile. -/
theorem C112_names (t t' : SymTab) (gen gen' : Obj → Bool) (p q g h : Obj) (hg : genSym p = some g) (hh : genSym q = some h)
    (hp : gen p = true) (hq : gen' q = true) :
    ∃ a b, symbolStr t gen g = some a ∧ symbolStr t' gen' h = some b ∧ (a = b ↔ p = q) ∧ (g = h ↔ p = q) := by
  have key : ∀ {p g : Obj}, genSym p = some g → p >>> 48 = 0#64 ∧ g = packed p TAG_PTR := by
    intro p g h
    unfold genSym makeNaNPtr at h
    split at h
    · rename_i h0; cases h; exact ⟨h0, rfl⟩
    · cases h
  obtain ⟨hp48, rfl⟩ := key hg
  obtain ⟨hq48, rfl⟩ := key hh
  refine ⟨_, _, name_eq hp48 hp, name_eq hq48 hq, ⟨fun e => ?_, fun e => by rw [e]⟩, ⟨fun e => ?_, fun e => by rw [e]⟩⟩
  · have := digits_inj (List.cons.inj e).2
    exact BitVec.eq_of_toNat_eq (by omega)
  · rw [← ptrOf_packed hp48 TAG_PTR, e, ptrOf_packed hq48]

/-- C112 (b). The C variable for a generated symbol has its name, which is an identifier; so different generated symbols have different
variables. -/
theorem C112_variables (t : SymTab) (gen : Obj → Bool) (p g : Obj) (hg : genSym p = some g) (hp : gen p = true) :
    ∃ a, symbolStr t gen g = some a ∧ cVariable t gen g = some a ∧ CIdent a ∧ LooksGenerated a := by
  unfold genSym makeNaNPtr at hg
  split at hg
  · rename_i h0
    cases hg
    have hl := nameOf_looks h0
    obtain ⟨h1, h2, h3, h4⟩ := looks_chars hl
    refine ⟨nameOf p, name_eq h0 hp, ?_, ⟨fun c hc => (h1 c hc).1, 120, _, rfl, by decide⟩, hl⟩
    show (symbolStr t gen (packed p TAG_PTR)).bind generateSym = _
    rw [name_eq h0 hp]
    exact C38_plain_names_unchanged h1 h2 h3
  · cases hg

/-- C112 (c). A symbol with another name that does not look like that of a generated symbol has another C variable. -/
theorem C112_interned_partial (t : SymTab) (gen : Obj → Bool) (p g : Obj) (hg : genSym p = some g) (hp : gen p = true)
    (s : Obj) (n : Bytes) (hs : symbolStr t gen s = some n) (hn : ∀ c ∈ n, Printing c) (hl : n.length < 255) (hlook : ¬ LooksGenerated n) :
    symbolStr t gen g ≠ some n ∧ ∃ a b, cVariable t gen g = some a ∧ cVariable t gen s = some b ∧ a ≠ b := by
  obtain ⟨a, h1, h2, -, h4⟩ := C112_variables t gen p g hg hp
  obtain ⟨c1, c2, c3, c4⟩ := looks_chars h4
  have hne : a ≠ n := fun e => hlook (e ▸ h4)
  refine ⟨fun e => hne (Option.some.inj (h1.symm.trans e)), ?_⟩
  have hv : ∀ x, generateSym n = some x → cVariable t gen s = some x := fun x hx => by
    show (symbolStr t gen s).bind generateSym = _
    rw [hs]; exact hx
  obtain ⟨s1, s2⟩ := generateSym_eq hn hl
  by_cases hd : StartsDigit n
  · refine ⟨a, _, h2, hv _ (s1 hd), fun e => ?_⟩
    obtain ⟨r, rfl, -⟩ := h4
    have := (List.cons.inj e).1
    revert this; decide
  · obtain ⟨x, y, e1, e2, hxy⟩ := C38_injective_partial c4 hn c3 hl ⟨fun h => absurd h c2, fun h => absurd h hd⟩ hne
    have hx : x = a := by
      have := C38_plain_names_unchanged c1 c2 c3
      rw [this] at e1
      exact (Option.some.inj e1).symm
    exact ⟨a, y, h2, hv y e2, hx ▸ hxy⟩

/-- C112 (d). The claim is false for names that look so: when the name of a generated symbol is interned (as the reader does with the printed
name), in any history, the result is another symbol with the same name and the same C variable. -/
theorem C112_same_name_wrong (gen : Obj → Bool) (p g : Obj) (hg : genSym p = some g) (hp : gen p = true)
    (hist : List (Obj × Key)) (h48 : ∀ e ∈ hist, e.1 >>> 48 = 0#64) (hfresh : (hist.map (·.1)).Nodup)
    (hnul : ∀ e ∈ hist, ∀ c ∈ e.2.1, c ≠ 0) :
    ∃ t os, internAll SymTab.init hist = some (t, os) ∧ ∀ (i : Nat) (e : Obj × Key) (o : Obj), hist[i]? = some e → os[i]? = some o →
      some e.2.1 = symbolStr t gen g → o ≠ g ∧ symbolStr t gen o = symbolStr t gen g ∧ cVariable t gen o = cVariable t gen g := by
  obtain ⟨t, os, h1, -, -, h4⟩ := C13_intern hist h48 hfresh hnul
  refine ⟨t, os, h1, fun i e o hi ho hname => ?_⟩
  obtain ⟨a, ha, -, -, hlook⟩ := C112_variables t gen p g hg hp
  obtain ⟨hsym, hstr⟩ := h4 i e o hi ho
  rw [ha] at hname
  have hea : e.2.1 = a := Option.some.inj hname
  have hlen : e.2.1.length < 255 := by rw [hea]; exact (looks_chars hlook).2.2.1
  rw [if_pos hlen] at hstr
  have htag : tagOf o = TAG_SYMBOL.setWidth 64 := by
    simp only [issymbol, Bool.and_false, Bool.or_false, Bool.and_eq_true, beq_iff_eq] at hsym
    exact hsym.2
  have hissym : issymbol gen o = true := by
    simp only [issymbol, Bool.and_false, Bool.or_false, Bool.and_eq_true, beq_iff_eq] at hsym
    simp [issymbol, hsym.1, hsym.2]
  have hso : symbolStr t gen o = some a := by
    unfold symbolStr
    rw [if_pos hissym, if_pos htag, hstr, hea]
  refine ⟨?_, hso.trans ha.symm, by unfold cVariable; rw [hso, ha]⟩
  rintro rfl
  unfold genSym makeNaNPtr at hg
  split at hg
  · rename_i h0
    cases hg
    have : tagOf (packed p TAG_PTR) = TAG_PTR.setWidth 64 := tagOf_packed h0 TAG_PTR (by decide)
    have h2 : tagOf (packed p TAG_PTR) = TAG_SYMBOL.setWidth 64 := htag
    rw [this] at h2
    revert h2; decide
  · cases hg

/-! ### cases -/

/-- the generated symbol at the address 65536 -/
example : genSym 65536#64 = some 0x7FFF000000010000#64 := by decide
example : symbolStr SymTab.init (fun p => p == 65536#64) 0x7FFF000000010000#64 = some ("x9223090561878130688".toList.map (·.toNat.toUInt8)) := by
  decide +kernel
/-- a name that does not look so, with a dash that is written as a number -/
example : ¬ LooksGenerated [120, 45, 49] := by
  rintro ⟨r, e, h, -⟩
  cases e
  revert h; decide
/-- an interned symbol has its name -/
example : (internAll SymTab.init [(16#64, ⟨[120, 45, 49], by decide⟩)]).bind (fun (t, os) =>
    os[0]?.bind (symbolStr t (fun p => p == 65536#64))) = some [120, 45, 49] := by decide +kernel
/-- a history in which the name of that symbol is interned -/
def sampleHist : List (Obj × Key) := [(16#64, ⟨[97], by decide⟩), (32#64, ⟨nameOf 65536#64, by decide +kernel⟩)]
example : (∀ e ∈ sampleHist, e.1 >>> 48 = 0#64) ∧ (sampleHist.map (·.1)).Nodup ∧ (∀ e ∈ sampleHist, ∀ c ∈ e.2.1, c ≠ 0) := by decide +kernel
example (t : SymTab) : some (nameOf 65536#64) = symbolStr t (fun p => p == 65536#64) (packed 65536#64 TAG_PTR) :=
  (name_eq (by decide) (by decide)).symm

end Cora.GenName
